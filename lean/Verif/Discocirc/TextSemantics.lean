import Verif.Discocirc.MatcherSemantics

/-!
# DisCoCirc circuits: the linear map of the circuit of a text (C88)
-/

namespace Lambeq
open Diagram
set_option linter.unusedSimpArgs false
set_option linter.unusedSectionVars false

namespace Disco
variable {R : Type} [CommSemiring R] {I : Interp Ob FBox R}

theorem split_nouns {a b : Nat} {z : List Nat} (hz : z ∈ I.idx (nouns (a + b))) :
    z.take a ∈ I.idx (nouns a) ∧ z.drop a ∈ I.idx (nouns b) ∧ z = z.take a ++ z.drop a := by
  obtain ⟨h1, h2⟩ := mem_nouns.1 hz
  exact ⟨mem_nouns.2 ⟨by simp [h1], fun c hc => h2 c (List.mem_of_mem_take hc)⟩,
    mem_nouns.2 ⟨by simp [h1], fun c hc => h2 c (List.mem_of_mem_drop hc)⟩, (List.take_append_drop a z).symm⟩

theorem pick_append (x a b : List Nat) : pick x (a ++ b) = pick x a ++ pick x b := by simp [pick]

/-- The map of one sentence attached to the circuit so far. -/
theorem attach_spec (hS : I.Swaps) (hI : Spiders I) {big s : FD} {k0 pre K : Nat} {anc W : List Nat} (hb : big.WT) (hbd : big.dom = nouns k0)
    (hbc : big.cod = nouns k0) (hk : k0 + pre = K + 1) (hw : ∀ w ∈ anc ++ W, w < K + 1) (hK : K ∈ anc ++ W) (hs : s.WT)
    (hsd : s.dom = nouns W.length) (hsc : s.cod = nouns W.length) :
    ∃ m d : FD, matcher (anc ++ W) = .ok m ∧ attach big m s pre anc.length = .ok d ∧ d.WT ∧ d.dom = nouns (K + 1) ∧ d.cod = nouns (K + 1) ∧
      ∀ x ∈ I.idx (nouns (K + 1)), ∀ y ∈ I.idx (nouns (K + 1)), I.mat d x y = ∑ z ∈ I.idx (nouns (K + 1)),
        (I.mat big (x.take k0) (z.take k0) * (if z.drop k0 = x.drop k0 then 1 else 0)) *
          ((if pick y anc = pick z anc then 1 else 0) * I.mat s (pick z W) (pick y W)) := by
  obtain ⟨m, m1, m2, m3, m4, m5, m6, m7, m8, m9⟩ := matcher_spec hS hI (anc ++ W) K hw hK
  have hA : (tensor big (Diagram.id (nouns pre))).WT := WT.tensor hb (WT.id _)
  have hAd : (tensor big (Diagram.id (nouns pre))).dom = nouns (K + 1) := by rw [tensor_dom, hbd, ← hk, ← nouns_add]; rfl
  have hAc : (tensor big (Diagram.id (nouns pre))).cod = nouns (K + 1) := by rw [tensor_cod, hbc, ← hk, ← nouns_add]; rfl
  have hB : (tensor (Diagram.id (nouns anc.length)) s).WT := WT.tensor (WT.id _) hs
  have hBd : (tensor (Diagram.id (nouns anc.length)) s).dom = nouns (anc ++ W).length := by
    rw [tensor_dom, hsd, List.length_append, ← nouns_add]; rfl
  have hBc : (tensor (Diagram.id (nouns anc.length)) s).cod = nouns (anc ++ W).length := by
    rw [tensor_cod, hsc, List.length_append, ← nouns_add]; rfl
  have c1 : (tensor big (Diagram.id (nouns pre))).cod = m.dom := by rw [hAc, m3]
  have c2 : (comp (tensor big (Diagram.id (nouns pre))) m).cod = (tensor (Diagram.id (nouns anc.length)) s).dom := by
    rw [hBd]; exact m4
  have c3 : (comp (comp (tensor big (Diagram.id (nouns pre))) m) (tensor (Diagram.id (nouns anc.length)) s)).cod = (fdagger m).dom := by
    rw [m6]; exact hBc
  have w1 := comp_wt hA m2 c1
  have w2 := comp_wt w1 hB c2
  have w3 := comp_wt w2 m5 c3
  refine ⟨m, comp (comp (comp (tensor big (Diagram.id (nouns pre))) m) (tensor (Diagram.id (nouns anc.length)) s)) (fdagger m), m1, ?_, w3, hAd, m7, ?_⟩
  · unfold attach
    rw [andThen_eq_ok c1]
    dsimp only
    rw [show (⟨(tensor big (Diagram.id (nouns pre))).dom, m.cod, (tensor big (Diagram.id (nouns pre))).layers ++ m.layers⟩ : FD)
      = comp (tensor big (Diagram.id (nouns pre))) m from rfl, andThen_eq_ok c2]
    dsimp only
    exact andThen_eq_ok c3
  · intro x hx y hy
    have hwm : ∀ z ∈ I.idx (nouns (K + 1)), pick z (anc ++ W) ∈ I.idx (nouns (anc ++ W).length) := fun z hz => pick_mem hz hw
    have hwa : ∀ z ∈ I.idx (nouns (K + 1)), pick z anc ∈ I.idx (nouns anc.length) := fun z hz => pick_mem hz (fun w h => hw w (List.mem_append_left _ h))
    have hwW : ∀ z ∈ I.idx (nouns (K + 1)), pick z W ∈ I.idx (nouns W.length) := fun z hz => pick_mem hz (fun w h => hw w (List.mem_append_right _ h))
    have s1 : I.mat (comp (comp (comp (tensor big (Diagram.id (nouns pre))) m) (tensor (Diagram.id (nouns anc.length)) s)) (fdagger m)) x y =
        I.mat (comp (comp (tensor big (Diagram.id (nouns pre))) m) (tensor (Diagram.id (nouns anc.length)) s)) x (pick y (anc ++ W)) := by
      rw [I.mat_comp' m5 c3 x (by rw [m7]; exact hy), Finset.sum_eq_single (pick y (anc ++ W))]
      · rw [m9 y hy _ (hwm y hy), if_pos rfl, mul_one]
      · intro k hk hne
        rw [c3, m6] at hk
        rw [m9 y hy k hk, if_neg hne, mul_zero]
      · intro h
        exact absurd (by rw [c3, m6]; exact hwm y hy) h
    rw [s1, I.mat_comp' hB c2 x (by rw [hBc]; exact hwm y hy)]
    have s2 : ∀ k ∈ I.idx m.cod, I.mat (comp (tensor big (Diagram.id (nouns pre))) m) x k = ∑ z ∈ I.idx (nouns (K + 1)),
        I.mat (tensor big (Diagram.id (nouns pre))) x z * (if k = pick z (anc ++ W) then 1 else 0) := by
      intro k hk
      rw [I.mat_comp' m2 c1 x hk, hAc]
      refine Finset.sum_congr rfl (fun z hz => ?_)
      rw [m8 z hz k (by rw [← m4]; exact hk)]
    have e2 : (comp (tensor big (Diagram.id (nouns pre))) m).cod = m.cod := rfl
    rw [e2, Finset.sum_congr rfl (fun k hk => by rw [s2 k hk])]
    simp only [Finset.sum_mul]
    rw [Finset.sum_comm]
    refine Finset.sum_congr rfl (fun z hz => ?_)
    rw [Finset.sum_eq_single (pick z (anc ++ W))]
    · rw [if_pos rfl, mul_one, pick_append, pick_append]
      have hx' := hx; have hz' := hz
      rw [← hk] at hx' hz'
      obtain ⟨x1, x2, x3⟩ := split_nouns hx'
      obtain ⟨z1, z2, z3⟩ := split_nouns hz'
      have t1 : I.mat (tensor big (Diagram.id (nouns pre))) x z = I.mat big (x.take k0) (z.take k0) * (if z.drop k0 = x.drop k0 then 1 else 0) := by
        conv_lhs => rw [x3, z3]
        rw [I.mat_tensor hb (WT.id (nouns pre)) (by rw [hbd]; exact x1) x2 (by rw [hbc]; exact z1) z2, I.mat_id]
      have t2 : I.mat (tensor (Diagram.id (nouns anc.length)) s) (pick z anc ++ pick z W) (pick y anc ++ pick y W) =
          (if pick y anc = pick z anc then 1 else 0) * I.mat s (pick z W) (pick y W) := by
        rw [I.mat_tensor (WT.id (nouns anc.length)) hs (hwa z hz) (by rw [hsd]; exact hwW z hz) (hwa y hy) (by rw [hsc]; exact hwW y hy), I.mat_id]
      rw [t1, t2]
    · intro k hk hne
      rw [if_neg hne, mul_zero, zero_mul]
    · intro h
      exact absurd (by rw [m4]; exact hwm z hz) h

/-- The row of noun states. -/
theorem row_boxes_mat : ∀ bs : List FBox, (∀ b ∈ bs, b.dom = [] ∧ b.cod = [noun]) →
    ((bs.map (fun b => (ofBox b : FD))).foldr tensor (Diagram.id [])).WT ∧ ((bs.map (fun b => (ofBox b : FD))).foldr tensor (Diagram.id [])).dom = [] ∧
    ((bs.map (fun b => (ofBox b : FD))).foldr tensor (Diagram.id [])).cod = nouns bs.length ∧
    ∀ y ∈ I.idx (nouns bs.length), I.mat ((bs.map (fun b => (ofBox b : FD))).foldr tensor (Diagram.id [])) [] y = rowTen I bs y
  | [], _ => by
      refine ⟨WT.id _, rfl, rfl, ?_⟩
      intro y hy
      have e : y = [] := by simpa using (mem_nouns.1 hy).1
      subst e
      simp [I.mat_id, rowTen]
  | b :: bs, h => by
      obtain ⟨h1, h2, h3, h4⟩ := row_boxes_mat bs (fun b hb => h b (List.mem_cons_of_mem _ hb))
      obtain ⟨bd, bc⟩ := h b List.mem_cons_self
      simp only [List.map_cons, List.foldr_cons]
      generalize (bs.map (fun b => (ofBox b : FD))).foldr tensor (Diagram.id []) = d at *
      have od : (ofBox b : FD).dom = [] := bd
      have oc : (ofBox b : FD).cod = nouns 1 := bc
      refine ⟨WT.tensor (WT.ofBox _) h1, ?_, ?_, ?_⟩
      · rw [tensor_dom, od, h2]; rfl
      · rw [tensor_cod, oc, h3, nouns_add, List.length_cons, Nat.add_comm]
      · intro y hy
        rw [List.length_cons, Nat.add_comm] at hy
        obtain ⟨y1, y2, y3⟩ := split_nouns hy
        rw [rowTen]
        conv_lhs => rw [y3, show ([] : List Nat) = [] ++ [] from rfl]
        have e0 : ([] : List Nat) ∈ I.idx ([] : List Ob) := by simp [Interp.idx]
        rw [I.mat_tensor (WT.ofBox _) h1 (by rw [od]; exact e0) (by rw [h2]; exact e0) (by rw [oc]; exact y1) (by rw [h3]; exact y2), h4 _ y2,
          I.mat_ofBox _ (by show [] ∈ I.idx b.dom; rw [bd]; exact e0) (by show _ ∈ I.idx b.cod; rw [bc]; exact y1)]

theorem rowTen_append (as bs : List FBox) (y : List Nat) : rowTen I (as ++ bs) y = rowTen I as (y.take as.length) * rowTen I bs (y.drop as.length) := by
  induction as generalizing y with
  | nil => simp [rowTen]
  | cons a as ih =>
    rw [List.cons_append, rowTen, rowTen, ih, mul_assoc]
    congr 1
    · rw [List.take_take]; simp
    · rw [List.length_cons, List.drop_drop, Nat.add_comm 1, List.drop_take]; simp

/-- The state of the entities for a state of the loop. -/
def vec (I : Interp Ob FBox R) (k : Nat) (boxes : List FBox) (big : FD) (y : List Nat) : R := ∑ x ∈ I.idx (nouns k), rowTen I boxes x * I.mat big x y

/-- The state of the loop. -/
structure Loop {α : Type} (st : Big α) : Prop where
  len : st.2.1.length = st.1.length
  boxes : ∀ b ∈ st.2.1, b.dom = [] ∧ b.cod = [noun]
  wt : st.2.2.WT
  dom : st.2.2.dom = nouns st.1.length
  cod : st.2.2.cod = nouns st.1.length

theorem firstBoxes_sub {α β : Type} [DecidableEq α] (es : List α) (ps : List (α × β)) : ∀ b ∈ firstBoxes es ps, ∃ p ∈ ps, p.2 = b := by
  induction ps generalizing es with
  | nil => intro b hb; simp [firstBoxes] at hb
  | cons p ps ih =>
    intro b hb
    rw [firstBoxes] at hb
    by_cases h : p.1 ∈ es
    · rw [if_pos h] at hb
      obtain ⟨q, h1, h2⟩ := ih _ b hb
      exact ⟨q, List.mem_cons_of_mem _ h1, h2⟩
    · rw [if_neg h] at hb
      rcases List.mem_cons.1 hb with e | hb
      · exact ⟨p, List.mem_cons_self, e.symm⟩
      · obtain ⟨q, h1, h2⟩ := ih _ b hb
        exact ⟨q, List.mem_cons_of_mem _ h1, h2⟩

/-- One sentence. -/
theorem sentence_spec {α : Type} [DecidableEq α] (hS : I.Swaps) (hI : Spiders I) (st : Big α) (h : Loop st) (s : Sentence α) (hs : s.Ok)
    (hne : entities st.1 (s.2.map Prod.fst) ≠ []) : ∃ st' : Big α, sentenceStep st s = .ok st' ∧ Loop st' ∧ st'.1 = entities st.1 (s.2.map Prod.fst) ∧
      ∀ y ∈ I.idx (nouns st'.1.length), vec I st'.1.length st'.2.1 st'.2.2 y = afterSentence I st.1 (vec I st.1.length st.2.1 st.2.2) s y := by
  obtain ⟨n0, b0, big⟩ := st
  obtain ⟨h1, h2, h3, h4, h5⟩ := h
  simp only at h1 h2 h3 h4 h5 hne
  have hinv := collect_inv n0 b0 s.2
  generalize hc : collect n0 b0 s.2 = c at hinv
  obtain ⟨i1, i2, i3, i4, i5, i6, i7⟩ := hinv
  have hpos : 0 < c.n2w.length := by rw [i1]; exact List.length_pos_iff.2 hne
  obtain ⟨K, hK⟩ : ∃ K, c.n2w.length = K + 1 := ⟨c.n2w.length - 1, by omega⟩
  have hsort : c.anc.insertionSort (· ≤ ·) = c.anc := by
    refine List.Pairwise.insertionSort_eq ?_
    rw [i6]
    exact (List.pairwise_lt_range.imp (fun h => le_of_lt h)).filter _
  have hws : wireIds c = c.anc ++ c.ids := by rw [wireIds, hsort]
  have hle : n0.length ≤ K + 1 := by omega
  have hids : ∀ w ∈ c.ids, w < K + 1 := by
    intro w hw
    rw [i5] at hw
    obtain ⟨p, hp, rfl⟩ := List.mem_map.1 hw
    rw [← hK]
    exact List.idxOf_lt_length_of_mem (by rw [i1, mem_entities]; exact .inr (List.mem_map.2 ⟨p, hp, rfl⟩))
  have hanc : ∀ w, w ∈ c.anc ↔ w < K + 1 ∧ w ∉ c.ids := by
    intro w
    rw [i6]
    simp only [List.mem_filter, List.mem_range, decide_eq_true_eq]
    constructor
    · rintro ⟨a, b⟩; exact ⟨by omega, b⟩
    · rintro ⟨a, b⟩
      refine ⟨?_, b⟩
      by_contra hcon
      exact b (i7 w (by omega) (by omega))
  have hw : ∀ w ∈ c.anc ++ c.ids, w < K + 1 := by
    intro w hw
    rcases List.mem_append.1 hw with h | h
    · exact ((hanc w).1 h).1
    · exact hids w h
  have hKm : K ∈ c.anc ++ c.ids := by
    by_cases hm : K ∈ c.ids
    · exact List.mem_append_right _ hm
    · exact List.mem_append_left _ ((hanc K).2 ⟨by omega, hm⟩)
  have hlen : c.ids.length = s.2.length := by rw [i5, List.length_map]
  obtain ⟨m, d, m1, d1, d2, d3, d4, d5⟩ := attach_spec hS hI (big := big) (s := s.1) (k0 := n0.length) (pre := c.pre) (K := K) (anc := c.anc) (W := c.ids)
    h3 h4 h5 (by omega) hw hKm hs.wt (by rw [hlen]; exact hs.dom) (by rw [hlen]; exact hs.cod)
  refine ⟨(c.n2w, c.boxes, d), ?_, ?_, i1, ?_⟩
  · unfold sentenceStep
    simp only [hc, hws, m1, d1]
  · refine ⟨?_, ?_, d2, ?_, ?_⟩
    · show c.boxes.length = c.n2w.length; omega
    · intro b hb
      have hb' : b ∈ c.boxes := hb
      rw [i4] at hb'
      rcases List.mem_append.1 hb' with hb | hb
      · exact h2 b hb
      · obtain ⟨p, hp, rfl⟩ := firstBoxes_sub _ _ b hb
        exact hs.boxes p hp
    · show d.dom = nouns c.n2w.length; rw [hK]; exact d3
    · show d.cod = nouns c.n2w.length; rw [hK]; exact d4
  · intro y hy
    have hy' : y ∈ I.idx (nouns (K + 1)) := by rw [← hK]; exact hy
    have hes : entities n0 (s.2.map Prod.fst) = c.n2w := i1.symm
    unfold afterSentence vec
    simp only [hes, hK]
    rw [← i5]
    have e1 : ∀ x ∈ I.idx (nouns (K + 1)), rowTen I c.boxes x * I.mat d x y = ∑ z ∈ I.idx (nouns (K + 1)), rowTen I c.boxes x *
        ((I.mat big (x.take n0.length) (z.take n0.length) * (if z.drop n0.length = x.drop n0.length then 1 else 0)) *
          ((if pick y c.anc = pick z c.anc then 1 else 0) * I.mat s.1 (pick z c.ids) (pick y c.ids))) := by
      intro x hx
      rw [d5 x hx y hy', Finset.mul_sum]
    rw [Finset.sum_congr rfl e1, Finset.sum_comm]
    refine Finset.sum_congr rfl (fun z hz => ?_)
    have hk : n0.length + c.pre = K + 1 := by omega
    have hz' := hz
    rw [← hk] at hz'
    obtain ⟨z1, z2, z3⟩ := split_nouns hz'
    have e2 : (if ∀ w < K + 1, w ∉ c.ids → y.getD w 0 = z.getD w 0 then I.mat s.1 (pick z c.ids) (pick y c.ids) else 0) =
        (if pick y c.anc = pick z c.anc then 1 else 0) * I.mat s.1 (pick z c.ids) (pick y c.ids) := by
      rw [ite_mul, one_mul, zero_mul]
      refine if_congr ?_ rfl rfl
      rw [pick, pick, List.map_inj_left]
      constructor
      · intro hh w hw
        exact hh w ((hanc w).1 hw).1 ((hanc w).1 hw).2
      · intro hh w hw hn
        exact hh w ((hanc w).2 ⟨hw, hn⟩)
    rw [e2, ← hk, ← nouns_add, I.sum_idx_append, Finset.sum_mul, Finset.sum_mul]
    refine Finset.sum_congr rfl (fun u hu => ?_)
    have hul := (mem_nouns.1 hu).1
    rw [Finset.sum_eq_single (z.drop n0.length)]
    · rw [i4, rowTen_append, h1, List.take_left' hul, List.drop_left' hul, if_pos rfl, mul_one]
      ring
    · intro v hv hne'
      rw [List.drop_left' hul, if_neg (fun e => hne' e.symm)]
      simp
    · intro hh; exact absurd z2 hh

theorem afterSentence_congr {α : Type} [DecidableEq α] (es : List α) {v w : List Nat → R} (h : ∀ z ∈ I.idx (nouns es.length), v z = w z) (s : Sentence α)
    (y : List Nat) : afterSentence I es v s y = afterSentence I es w s y := by
  unfold afterSentence
  refine Finset.sum_congr rfl (fun z hz => ?_)
  obtain ⟨new, hn⟩ := entities_prefix es (s.2.map Prod.fst)
  have hl : (entities es (s.2.map Prod.fst)).length = es.length + new.length := by rw [hn, List.length_append]
  rw [hl] at hz
  rw [h _ (split_nouns hz).1]

theorem meaning_congr {α : Type} [DecidableEq α] (ss : List (Sentence α)) : ∀ (es : List α) {v w : List Nat → R},
    (∀ z ∈ I.idx (nouns es.length), v z = w z) → ∀ y ∈ I.idx (nouns (entities es (ss.flatMap (fun s => s.2.map Prod.fst))).length),
      meaning I es v ss y = meaning I es w ss y := by
  induction ss with
  | nil => intro es v w h y hy; exact h y hy
  | cons s ss ih =>
    intro es v w h y hy
    rw [meaning, meaning]
    have : afterSentence I es v s = afterSentence I es w s := funext (fun y => afterSentence_congr es h s y)
    rw [this]

theorem text_spec {α : Type} [DecidableEq α] (hS : I.Swaps) (hI : Spiders I) (ss : List (Sentence α)) : ∀ (st : Big α), Loop st → (∀ s ∈ ss, s.Ok) →
    (st.1 ≠ [] ∨ ∀ s ∈ ss.head?, s.2 ≠ []) → ∃ st' : Big α, textLoop st ss = .ok st' ∧ Loop st' ∧
      st'.1 = entities st.1 (ss.flatMap (fun s => s.2.map Prod.fst)) ∧
      ∀ y ∈ I.idx (nouns st'.1.length), vec I st'.1.length st'.2.1 st'.2.2 y = meaning I st.1 (vec I st.1.length st.2.1 st.2.2) ss y := by
  induction ss with
  | nil => intro st h _ _; exact ⟨st, rfl, h, rfl, fun y _ => rfl⟩
  | cons s ss ih =>
    intro st h hs h0
    have hne : entities st.1 (s.2.map Prod.fst) ≠ [] := by
      rcases h0 with h0 | h0
      · obtain ⟨a, ha⟩ := List.exists_mem_of_ne_nil _ h0
        exact List.ne_nil_of_mem ((mem_entities _ _ a).2 (.inl ha))
      · obtain ⟨p, hp⟩ := List.exists_mem_of_ne_nil _ (h0 s (by simp))
        exact List.ne_nil_of_mem ((mem_entities _ _ p.1).2 (.inr (List.mem_map.2 ⟨p, hp, rfl⟩)))
    obtain ⟨st1, e1, e2, e3, e4⟩ := sentence_spec hS hI st h s (hs s (by simp)) hne
    obtain ⟨st2, f1, f2, f3, f4⟩ := ih st1 e2 (fun t ht => hs t (List.mem_cons_of_mem _ ht)) (.inl (by rw [e3]; exact hne))
    refine ⟨st2, by rw [textLoop, e1]; exact f1, f2, ?_, ?_⟩
    · rw [f3, e3, List.flatMap_cons, entities_append]
    · intro y hy
      rw [f4 y hy, meaning, ← e3]
      refine meaning_congr ss st1.1 e4 y ?_
      rw [← f3]; exact hy

end Disco
end Lambeq
