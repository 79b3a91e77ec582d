import Verif.Drawing.PregroupLayout
import Mathlib.Tactic.IntervalCases

namespace Lambeq
namespace Draw
set_option linter.unusedSectionVars false
set_option linter.unusedSimpArgs false

/-! ## One box -/

/-- The track of an end. -/
def PState.tr (s : PState) (i : Nat) : Nat := s.tracks.getD i 0
/-- The depth of a track. -/
def PState.dep (s : PState) (t : Nat) : ℚ := s.depth.getD t 0

/-- What holds after every box: `N` tracks at the places `X`, and `L` is the height of the box that owns an end. -/
structure PInv (N : Nat) (X : Nat → ℚ) (L : List ℚ) (s : PState) : Prop where
  tlen : s.tracks.length = s.D.ends.length
  llen : L.length = s.D.ends.length
  dlen : s.depth.length = N
  tlt : ∀ i < s.D.ends.length, s.tr i < N
  x : ∀ i < s.D.ends.length, s.D.xAt i = X (s.tr i)
  slt : ∀ a ∈ s.scan, a < s.D.ends.length
  sorted : (s.scan.map s.tr).Pairwise (· < ·)
  live : ∀ a ∈ s.scan, s.dep (s.tr a) ≤ L.getD a 0
  own : s.D.boxes.flatMap (fun b => b.dom ++ b.cod) = List.range s.D.ends.length
  scod : ∀ a ∈ s.scan, ∃ b ∈ s.D.boxes, a ∈ b.cod
  lev : ∀ b ∈ s.D.boxes, ∀ i ∈ b.dom ++ b.cod, L.getD i 0 = b.y
  wires : ∀ w ∈ s.D.wires, w.1 < s.D.ends.length ∧ w.2 < s.D.ends.length ∧ s.tr w.1 = s.tr w.2 ∧ L.getD w.2 0 + 3 / 4 ≤ L.getD w.1 0 ∧ s.dep (s.tr w.1) ≤ L.getD w.2 0 ∧
    (∃ b ∈ s.D.boxes, w.1 ∈ b.cod) ∧ ∃ b ∈ s.D.boxes, w.2 ∈ b.dom
  gram : ∀ b ∈ s.D.boxes, b.dom ≠ [] → ∃ p q, b.dom = [p, q] ∧ s.tr p < s.tr q ∧ b.x = (X (s.tr p) + X (s.tr q)) / 2 ∧
    (b.cod = [] ∨ ∃ p' q', b.cod = [p', q'] ∧ s.tr p' = s.tr p ∧ s.tr q' = s.tr q)
  pair : s.D.boxes.Pairwise (fun b c => ∀ p q p' q', b.dom = [p, q] → c.dom = [p', q'] → s.tr p ≤ s.tr q' → s.tr p' ≤ s.tr q → c.y ≤ b.y - 3 / 4)
  clear : ∀ b ∈ s.D.boxes, ∀ p q, b.dom = [p, q] → ∀ w ∈ s.D.wires, s.tr p ≤ s.tr w.1 → s.tr w.1 ≤ s.tr q → b.y ≤ L.getD w.2 0 ∨ L.getD w.1 0 ≤ b.y
  ahead : ∀ b ∈ s.D.boxes, ∀ p q, b.dom = [p, q] → ∀ a ∈ s.scan, s.tr p ≤ s.tr a → s.tr a ≤ s.tr q → L.getD a 0 ≤ b.y
  low : ∀ b ∈ s.D.boxes, ∀ p q, b.dom = [p, q] → ∀ t, s.tr p ≤ t → t ≤ s.tr q → s.dep t ≤ b.y
  top : ∀ t < N, s.dep t ≤ 0
  nonpos : ∀ b ∈ s.D.boxes, b.dom ≠ [] → b.y ≤ -(3 / 4)

theorem PInv.lt {N : Nat} {X : Nat → ℚ} {L : List ℚ} {s : PState} (I : PInv N X L s) {b : BoxNode Box} (hb : b ∈ s.D.boxes) {i : Nat} (hi : i ∈ b.dom ++ b.cod) : i < s.D.ends.length := by
  have : i ∈ s.D.boxes.flatMap (fun b => b.dom ++ b.cod) := List.mem_flatMap.2 ⟨b, hb, hi⟩
  rw [I.own] at this
  exact List.mem_range.1 this

theorem getD_old {α : Type} {l k : List α} {d : α} {i : Nat} (h : i < l.length) : (l ++ k).getD i d = l.getD i d := List.getD_append _ _ _ _ h

theorem step_inv {N : Nat} {X : Nat → ℚ} {L : List ℚ} {s s' : PState} (I : PInv N X L s) {A R C : List Nat} {a b n : Nat} {y : ℚ} {E : List (WireEnd Ob)} {nb : BoxNode Box}
    (hn : n = s.D.ends.length) (hs : s.scan = A ++ a :: b :: R) (hC : C = [] ∨ C = [n + 2, n + 3])
    (hE : s'.D.ends = s.D.ends ++ E)
    (hEx : E.map WireEnd.x = if C = [] then [s.D.xAt a, s.D.xAt b] else [s.D.xAt a, s.D.xAt b, s.D.xAt a, s.D.xAt b])
    (hT : s'.tracks = s.tracks ++ if C = [] then [s.tr a, s.tr b] else [s.tr a, s.tr b, s.tr a, s.tr b])
    (hb' : s'.D.boxes = s.D.boxes ++ [nb]) (hnx : nb.x = (s.D.xAt a + s.D.xAt b) / 2) (hny : nb.y = y - 3 / 4) (hnd : nb.dom = [n, n + 1]) (hnc : nb.cod = C)
    (hw' : s'.D.wires = s.D.wires ++ [(a, n), (b, n + 1)]) (hs' : s'.scan = A ++ C ++ R)
    (hdl : s'.depth.length = N) (hy : ∀ t, s.tr a ≤ t → t ≤ s.tr b → y ≤ s.dep t)
    (hd : ∀ t < N, s'.dep t = if s.tr a ≤ t ∧ t ≤ s.tr b then y - 3 / 4 else s.dep t) :
    PInv N X (L ++ List.replicate E.length (y - 3 / 4)) s' := by
  have hEl : E.length = if C = [] then 2 else 4 := by
    have := congrArg List.length hEx
    rw [List.length_map] at this
    rw [this]; split_ifs <;> rfl
  have hn' : s'.D.ends.length = n + E.length := by rw [hE, List.length_append, hn]
  have hCn : ([n + 2, n + 3] : List Nat) ≠ [] := by simp
  have ha : a < n := hn ▸ I.slt a (by rw [hs]; simp)
  have hb : b < n := hn ▸ I.slt b (by rw [hs]; simp)
  have hab : s.tr a < s.tr b := by
    have := I.sorted
    rw [hs] at this
    simp only [List.map_append, List.map_cons, List.pairwise_append, List.pairwise_cons, List.mem_cons] at this
    exact this.2.1.1 _ (.inl rfl)
  have tro : ∀ i < n, s'.tr i = s.tr i := by
    intro i hi
    rw [PState.tr, hT, getD_old (by rw [I.tlen, ← hn]; exact hi)]; rfl
  have trn : ∀ k, s'.tr (n + k) = (if C = [] then [s.tr a, s.tr b] else [s.tr a, s.tr b, s.tr a, s.tr b]).getD k 0 := by
    intro k
    rw [PState.tr, hT, List.getD_append_right _ _ _ _ (by rw [I.tlen, ← hn]; omega), I.tlen, ← hn, Nat.add_sub_cancel_left]
  have tn0 : s'.tr n = s.tr a := by
    have := trn 0
    rw [Nat.add_zero] at this
    rw [this]; split_ifs <;> rfl
  have tn1 : s'.tr (n + 1) = s.tr b := by rw [trn 1]; split_ifs <;> rfl
  have Lo : ∀ i < n, (L ++ List.replicate E.length (y - 3 / 4)).getD i 0 = L.getD i 0 := fun i hi => getD_old (by rw [I.llen, ← hn]; exact hi)
  have Ln : ∀ i, n ≤ i → i < n + E.length → (L ++ List.replicate E.length (y - 3 / 4)).getD i 0 = y - 3 / 4 := by
    intro i h1 h2
    rw [List.getD_append_right _ _ _ _ (by rw [I.llen, ← hn]; exact h1), List.getD_eq_getElem _ _ (by rw [List.length_replicate, I.llen, ← hn]; omega)]
    simp
  have E2 : 2 ≤ E.length := by rw [hEl]; split_ifs <;> omega
  have Cfacts : ∀ c ∈ C, n ≤ c ∧ c < n + E.length ∧ (s'.tr c = s.tr a ∨ s'.tr c = s.tr b) := by
    rcases hC with rfl | rfl
    · simp
    · rw [if_neg hCn] at hEl
      have t2 := trn 2
      have t3 := trn 3
      rw [if_neg hCn] at t2 t3
      intro c hc
      simp only [List.mem_cons, List.not_mem_nil, or_false] at hc
      rcases hc with rfl | rfl
      · exact ⟨by omega, by omega, .inl t2⟩
      · exact ⟨by omega, by omega, .inr t3⟩
  have hta : s.tr a < N := I.tlt a (hn ▸ ha)
  have htb : s.tr b < N := I.tlt b (hn ▸ hb)
  have hdo : ∀ t, t < N → s'.dep t ≤ s.dep t := by
    intro t ht
    rw [hd t ht]
    split_ifs with h
    · have := hy t h.1 h.2; linarith
    · exact le_refl _
  have bn : ∀ c ∈ s.D.boxes, ∀ i ∈ c.dom ++ c.cod, i < n := fun c hc i hi => hn ▸ I.lt hc hi
  -- elements of the scan
  have hA : ∀ c ∈ A, c < n ∧ c ∈ s.scan ∧ s.tr c < s.tr a := by
    intro c hc
    have hm : c ∈ s.scan := by rw [hs]; simp [hc]
    refine ⟨hn ▸ I.slt c hm, hm, ?_⟩
    have := I.sorted
    rw [hs, List.map_append, List.pairwise_append] at this
    exact this.2.2 _ (List.mem_map_of_mem hc) _ (by simp)
  have hR : ∀ c ∈ R, c < n ∧ c ∈ s.scan ∧ s.tr b < s.tr c := by
    intro c hc
    have hm : c ∈ s.scan := by rw [hs]; simp [hc]
    refine ⟨hn ▸ I.slt c hm, hm, ?_⟩
    have := I.sorted
    rw [hs] at this
    simp only [List.map_append, List.map_cons, List.pairwise_append, List.pairwise_cons] at this
    exact this.2.1.2.1 _ (List.mem_map_of_mem hc)
  have scanc : ∀ c ∈ s'.scan, (c < n ∧ c ∈ s.scan ∧ s'.tr c = s.tr c ∧ (s.tr c < s.tr a ∨ s.tr b < s.tr c)) ∨ c ∈ C := by
    intro c hc
    rw [hs', List.mem_append, List.mem_append] at hc
    rcases hc with (hc | hc) | hc
    · obtain ⟨h1, h2, h3⟩ := hA c hc
      exact .inl ⟨h1, h2, tro c h1, .inl h3⟩
    · exact .inr hc
    · obtain ⟨h1, h2, h3⟩ := hR c hc
      exact .inl ⟨h1, h2, tro c h1, .inr h3⟩
  have boxc : ∀ c ∈ s'.D.boxes, c ∈ s.D.boxes ∨ c = nb := by
    intro c hc
    rw [hb', List.mem_append, List.mem_singleton] at hc; exact hc
  have boxo : ∀ c ∈ s.D.boxes, c ∈ s'.D.boxes := fun c hc => by rw [hb']; exact List.mem_append_left _ hc
  have nbm : nb ∈ s'.D.boxes := by rw [hb']; simp
  have dom2 : ∀ c ∈ s.D.boxes, ∀ p q, c.dom = [p, q] → s'.tr p = s.tr p ∧ s'.tr q = s.tr q := by
    intro c hc p q h
    exact ⟨tro p (bn c hc p (by simp [h])), tro q (bn c hc q (by simp [h]))⟩
  have nbd : ∀ p q, nb.dom = [p, q] → s'.tr p = s.tr a ∧ s'.tr q = s.tr b := by
    intro p q h
    rw [hnd] at h
    injection h with h1 h
    injection h with h2 h
    subst h1; subst h2
    exact ⟨tn0, tn1⟩
  have xo : ∀ i < n, s'.D.xAt i = s.D.xAt i := by
    intro i hi
    rw [Drawable.xAt, Drawable.xAt, hE, List.getElem?_append_left (hn ▸ hi)]
  refine
    { tlen := ?_, llen := ?_, dlen := hdl, tlt := ?_, x := ?_, slt := ?_, sorted := ?_, live := ?_, own := ?_, scod := ?_, lev := ?_, wires := ?_, gram := ?_, pair := ?_, clear := ?_, ahead := ?_,
      low := ?_, top := ?_, nonpos := ?_ }
  · rw [hn', hT, List.length_append, I.tlen, hn, hEl]; split_ifs <;> rfl
  · rw [hn', List.length_append, I.llen, List.length_replicate, hn]
  · intro i hi
    rw [hn'] at hi
    by_cases h : i < n
    · rw [tro i h]; exact I.tlt i (hn ▸ h)
    · obtain ⟨k, rfl⟩ := Nat.exists_eq_add_of_le (Nat.le_of_not_lt h)
      have hk : k < E.length := by omega
      rw [trn k]
      rw [hEl] at hk
      split_ifs at hk ⊢ with hc
      · interval_cases k <;> simp [hta, htb]
      · interval_cases k <;> simp [hta, htb]
  · intro i hi
    rw [hn'] at hi
    by_cases h : i < n
    · rw [tro i h, xo i h]; exact I.x i (hn ▸ h)
    · obtain ⟨k, rfl⟩ := Nat.exists_eq_add_of_le (Nat.le_of_not_lt h)
      have hk : k < E.length := by omega
      have ex : s'.D.xAt (n + k) = (E.map WireEnd.x).getD k 0 := by
        rw [Drawable.xAt, hE, List.getElem?_append_right (by rw [← hn]; omega), ← hn, Nat.add_sub_cancel_left, List.getElem?_eq_getElem hk, List.getD_eq_getElem _ _ (by simpa using hk)]
        simp
      rw [trn k, ex, hEx, I.x a (hn ▸ ha), I.x b (hn ▸ hb)]
      rw [hEl] at hk
      split_ifs at hk ⊢ with hc
      · interval_cases k <;> simp
      · interval_cases k <;> simp
  · intro c hc
    rw [hn']
    rcases scanc c hc with h | h
    · omega
    · exact (Cfacts c h).2.1
  · have so := I.sorted
    rw [hs] at so
    simp only [List.map_append, List.map_cons, List.pairwise_append, List.pairwise_cons, List.mem_cons] at so
    rw [hs', List.append_assoc, List.map_append, List.map_append]
    have eA : A.map s'.tr = A.map s.tr := List.map_congr_left (fun c hc => tro c (hA c hc).1)
    have eR : R.map s'.tr = R.map s.tr := List.map_congr_left (fun c hc => tro c (hR c hc).1)
    rw [eA, eR]
    have inC : ∀ t ∈ C.map s'.tr, t = s.tr a ∨ t = s.tr b := by
      intro t ht
      obtain ⟨c, hc, rfl⟩ := List.mem_map.1 ht
      exact (Cfacts c hc).2.2
    rw [List.pairwise_append, List.pairwise_append]
    refine ⟨so.1, ⟨?_, so.2.1.2.2, ?_⟩, ?_⟩
    · rcases hC with rfl | rfl
      · simp
      · have t2 := trn 2
        have t3 := trn 3
        rw [if_neg hCn] at t2 t3
        simp only [List.map_cons, List.map_nil, t2, t3, List.pairwise_cons, List.mem_singleton, List.not_mem_nil, List.Pairwise.nil, false_implies, implies_true, and_true]
        rintro t rfl
        exact hab
    · intro t ht u hu
      obtain ⟨c, hc, rfl⟩ := List.mem_map.1 hu
      have := (hR c hc).2.2
      rcases inC t ht with rfl | rfl <;> omega
    · intro t ht u hu
      obtain ⟨c, hc, rfl⟩ := List.mem_map.1 ht
      have h1 := (hA c hc).2.2
      rcases List.mem_append.1 hu with h | h
      · rcases inC u h with rfl | rfl <;> omega
      · obtain ⟨e, he, rfl⟩ := List.mem_map.1 h
        have := (hR e he).2.2
        omega
  · intro c hc
    rcases scanc c hc with ⟨h1, h2, h3, h4⟩ | h
    · rw [h3, Lo c h1]
      exact le_trans (hdo _ (I.tlt c (hn ▸ h1))) (I.live c h2)
    · obtain ⟨h1, h2, h3⟩ := Cfacts c h
      rw [Ln c h1 h2]
      rcases h3 with h3 | h3 <;> rw [h3, hd _ (by assumption), if_pos ⟨by omega, by omega⟩]
  · rw [hb', List.flatMap_append, I.own, hn']
    simp only [List.flatMap_cons, List.flatMap_nil, List.append_nil, hnd, hnc]
    rw [← hn, List.range_add, hEl]
    congr 1
    rcases hC with rfl | rfl
    · rw [if_pos rfl]; simp [List.range_succ]
    · rw [if_neg hCn]; simp [List.range_succ]
  · intro c hc
    rcases scanc c hc with ⟨h1, h2, h3, h4⟩ | h
    · obtain ⟨e, he, h⟩ := I.scod c h2
      exact ⟨e, boxo e he, h⟩
    · exact ⟨nb, nbm, by rw [hnc]; exact h⟩
  · intro c hc i hi
    rcases boxc c hc with h | rfl
    · rw [Lo i (bn c h i hi)]; exact I.lev c h i hi
    · rw [hny]
      rw [hnd, hnc] at hi
      simp only [List.mem_append, List.mem_cons, List.not_mem_nil, or_false] at hi
      rcases hi with (rfl | rfl) | hi
      · exact Ln _ (by omega) (by omega)
      · exact Ln _ (by omega) (by omega)
      · exact Ln i (Cfacts i hi).1 (Cfacts i hi).2.1
  · intro w hw
    rw [hw', List.mem_append] at hw
    rw [hn']
    rcases hw with hw | hw
    · obtain ⟨h1, h2, h3, h4, h5, ⟨e, he, h6⟩, f, hf, h7⟩ := I.wires w hw
      have h1' : w.1 < n := hn ▸ h1
      have h2' : w.2 < n := hn ▸ h2
      rw [tro _ h1', tro _ h2', Lo _ h1', Lo _ h2']
      exact ⟨by omega, by omega, h3, h4, le_trans (hdo _ (I.tlt _ h1)) h5, ⟨e, boxo e he, h6⟩, f, boxo f hf, h7⟩
    · have la := I.live a (by rw [hs]; simp)
      have lb := I.live b (by rw [hs]; simp)
      have ya := hy (s.tr a) (by omega) (by omega)
      have yb := hy (s.tr b) (by omega) (by omega)
      simp only [List.mem_cons, List.not_mem_nil, or_false] at hw
      rcases hw with rfl | rfl
      · obtain ⟨e, he, h6⟩ := I.scod a (by rw [hs]; simp)
        simp only
        rw [tro a ha, tn0, Lo a ha, Ln n (by omega) (by omega), hd _ hta, if_pos ⟨by omega, by omega⟩]
        exact ⟨by omega, by omega, rfl, by linarith, by linarith, ⟨e, boxo e he, h6⟩, nb, nbm, by simp [hnd]⟩
      · obtain ⟨e, he, h6⟩ := I.scod b (by rw [hs]; simp)
        simp only
        rw [tro b hb, tn1, Lo b hb, Ln (n + 1) (by omega) (by omega), hd _ htb, if_pos ⟨by omega, by omega⟩]
        exact ⟨by omega, by omega, rfl, by linarith, by linarith, ⟨e, boxo e he, h6⟩, nb, nbm, by simp [hnd]⟩
  · intro c hc hne
    rcases boxc c hc with h | rfl
    · obtain ⟨p, q, h1, h2, h3, h4⟩ := I.gram c h hne
      obtain ⟨ep, eq⟩ := dom2 c h p q h1
      refine ⟨p, q, h1, by rw [ep, eq]; exact h2, by rw [ep, eq]; exact h3, ?_⟩
      rcases h4 with h4 | ⟨p', q', h4, h5, h6⟩
      · exact .inl h4
      · refine .inr ⟨p', q', h4, ?_, ?_⟩
        · rw [tro p' (bn c h p' (by simp [h4])), ep]; exact h5
        · rw [tro q' (bn c h q' (by simp [h4])), eq]; exact h6
    · refine ⟨n, n + 1, hnd, by rw [tn0, tn1]; exact hab, by rw [tn0, tn1, hnx, I.x a (hn ▸ ha), I.x b (hn ▸ hb)], ?_⟩
      rw [hnc]
      rcases hC with rfl | rfl
      · exact .inl rfl
      · have t2 := trn 2
        have t3 := trn 3
        rw [if_neg hCn] at t2 t3
        exact .inr ⟨n + 2, n + 3, rfl, by rw [tn0, t2]; rfl, by rw [tn1, t3]; rfl⟩
  · rw [hb', List.pairwise_append]
    refine ⟨?_, List.pairwise_singleton _ _, ?_⟩
    · refine I.pair.imp_of_mem ?_
      intro c e hc he h p q p' q' h1 h2 h3 h4
      rw [(dom2 c hc p q h1).1, (dom2 e he p' q' h2).2] at h3
      rw [(dom2 e he p' q' h2).1, (dom2 c hc p q h1).2] at h4
      exact h p q p' q' h1 h2 h3 h4
    · intro c hc e he p q p' q' h1 h2 h3 h4
      obtain rfl := List.mem_singleton.1 he
      obtain ⟨e1, e2⟩ := nbd p' q' h2
      obtain ⟨e3, e4⟩ := dom2 c hc p q h1
      rw [e3, e2] at h3
      rw [e1, e4] at h4
      obtain ⟨p₀, q₀, g1, g2, _⟩ := I.gram c hc (by rw [h1]; simp)
      rw [h1] at g1
      injection g1 with g3 g1
      injection g1 with g4 _
      subst g3; subst g4
      have := I.low c hc p q h1 (max (s.tr p) (s.tr a)) (by omega) (by omega)
      have := hy (max (s.tr p) (s.tr a)) (by omega) (by omega)
      rw [hny]; linarith
  · intro c hc p q h w hw h1 h2
    rw [hw', List.mem_append] at hw
    rcases boxc c hc with hc | rfl
    · obtain ⟨e3, e4⟩ := dom2 c hc p q h
      rcases hw with hw | hw
      · obtain ⟨l1, l2, _⟩ := I.wires w hw
        have l1' : w.1 < n := hn ▸ l1
        have l2' : w.2 < n := hn ▸ l2
        rw [e3, tro _ l1'] at h1
        rw [e4, tro _ l1'] at h2
        rw [Lo _ l1', Lo _ l2']
        exact I.clear c hc p q h w hw h1 h2
      · have key : ∀ v, v < n → v ∈ s.scan → w.1 = v → (L ++ List.replicate E.length (y - 3 / 4)).getD w.1 0 ≤ c.y := by
          rintro v hv hm rfl
          rw [e3, tro _ hv] at h1
          rw [e4, tro _ hv] at h2
          rw [Lo _ hv]
          exact I.ahead c hc p q h _ hm h1 h2
        simp only [List.mem_cons, List.not_mem_nil, or_false] at hw
        right
        rcases hw with rfl | rfl
        · exact key a ha (by rw [hs]; simp) rfl
        · exact key b hb (by rw [hs]; simp) rfl
    · obtain ⟨e1, e2⟩ := nbd p q h
      left
      rw [hny]
      rcases hw with hw | hw
      · obtain ⟨l1, l2, l3, l4, l5, _⟩ := I.wires w hw
        have l1' : w.1 < n := hn ▸ l1
        have l2' : w.2 < n := hn ▸ l2
        rw [e1, tro _ l1'] at h1
        rw [e2, tro _ l1'] at h2
        rw [Lo _ l2']
        have := hy _ h1 h2
        linarith
      · simp only [List.mem_cons, List.not_mem_nil, or_false] at hw
        rcases hw with rfl | rfl
        · rw [Ln n (by omega) (by omega)]
        · rw [Ln (n + 1) (by omega) (by omega)]
  · intro c hc p q h v hv h1 h2
    rcases boxc c hc with hc | rfl
    · obtain ⟨e3, e4⟩ := dom2 c hc p q h
      rcases scanc v hv with ⟨g1, g2, g3, g4⟩ | hC'
      · rw [e3, g3] at h1
        rw [e4, g3] at h2
        rw [Lo v g1]
        exact I.ahead c hc p q h v g2 h1 h2
      · obtain ⟨g1, g2, g3⟩ := Cfacts v hC'
        rw [Ln v g1 g2]
        rw [e3] at h1
        rw [e4] at h2
        have := I.low c hc p q h _ h1 h2
        have : y ≤ s.dep (s'.tr v) := by
          rcases g3 with g3 | g3 <;> rw [g3] <;> exact hy _ (by omega) (by omega)
        linarith
    · obtain ⟨e1, e2⟩ := nbd p q h
      rw [e1] at h1
      rw [e2] at h2
      rcases scanc v hv with ⟨g1, g2, g3, g4⟩ | hC'
      · rw [g3] at h1 h2
        omega
      · obtain ⟨g1, g2, g3⟩ := Cfacts v hC'
        rw [Ln v g1 g2, hny]
  · intro c hc p q h t h1 h2
    rcases boxc c hc with hc | rfl
    · obtain ⟨e3, e4⟩ := dom2 c hc p q h
      rw [e3] at h1
      rw [e4] at h2
      have htN : t < N := lt_of_le_of_lt h2 (I.tlt q (I.lt hc (by simp [h])))
      exact le_trans (hdo t htN) (I.low c hc p q h t h1 h2)
    · obtain ⟨e1, e2⟩ := nbd p q h
      rw [e1] at h1
      rw [e2] at h2
      rw [hny, hd t (by omega), if_pos ⟨h1, h2⟩]
  · intro t ht
    exact le_trans (hdo t ht) (I.top t ht)
  · intro c hc hne
    rcases boxc c hc with hc | rfl
    · exact I.nonpos c hc hne
    · have := hy (s.tr a) (le_refl _) (by omega)
      have := I.top (s.tr a) hta
      rw [hny]; linarith

end Draw
end Lambeq
