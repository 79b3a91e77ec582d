import Verif.Quantum.PennylaneRun

/-!
# PennyLane circuits: the theorems (C95)
-/

namespace Lambeq
open Diagram
set_option linter.unusedSectionVars false
set_option linter.unusedSimpArgs false

namespace QBox
noncomputable section

/-! ## Post-selections -/

theorem bra_layer (L R : List QOb) (v : List Nat → ℂ) (b : Bool) {yl yr : List Nat} (hl : yl.length = L.length) :
    tnCat.interp.act ⟨L, bra b, R⟩ v (yl ++ yr) = v (yl ++ (if b then 1 else 0) :: yr) := by
  have := tnCat.interp.act_split ⟨L, bra b, R⟩ v (yl := yl) (c := []) yr hl rfl
  rw [List.nil_append] at this
  rw [this]
  show ∑ i ∈ tnCat.interp.idx [QOb.qubit], v (yl ++ (i ++ yr)) * tnCat.interp.ten (bra b) i [] = _
  have hidx : tnCat.interp.idx [QOb.qubit] = {[0], [1]} := by
    rw [idx_allBits]
    ext z
    rw [show [QOb.qubit].length = 1 from rfl, mem_allBits]
    constructor
    · intro hz
      obtain ⟨a, z, rfl, ha, hz⟩ := Bits.uncons (n := 0) hz
      rw [hz.eq_nil]
      rcases (by omega : a = 0 ∨ a = 1) with rfl | rfl <;> simp
    · intro hz
      simp only [Finset.mem_insert, Finset.mem_singleton] at hz
      rcases hz with rfl | rfl <;> exact ⟨rfl, by simp⟩
  have ht : ∀ i, tnCat.interp.ten (bra b) i [] = (⟨[2], if b then [0, 1] else [1, 0]⟩ : NdArray ℂ).get (i ++ []) := fun i => tnCat_std.ten (b := bra b) rfl rfl i []
  rw [hidx, Finset.sum_pair (by simp), ht, ht]
  cases b <;> simp [NdArray.get, ravel]

/-- What holds after some of the post-selections: the open qubits `ws`, the state of the loop of `readoff_circuital`. -/
structure PostInv (n : Nat) (ws : List Nat) (st : Info) : Prop where
  avail : st.avail = ws
  sub : ws.Sublist (List.range n)
  mem : ∀ q, q ∈ ws ↔ q < n ∧ q ∉ st.postmap.map Prod.fst
  nodup : (st.postmap.map Prod.fst).Nodup
  lt : ∀ q ∈ st.postmap.map Prod.fst, q < n
  bit : ∀ p ∈ st.postmap, p.2 < 2

/-- The value at the open qubits is the amplitude of the states that agree with the post-selections. -/
def Projects (n : Nat) (ws : List Nat) (post : List (Nat × Nat)) (v Ψ : List Nat → ℂ) : Prop :=
  ∀ z, Bits n z → (∀ p ∈ post, z.getD p.1 0 = p.2) → v (ws.map (fun q => z.getD q 0)) = Ψ z

theorem post_layer {n : Nat} {ws : List Nat} {st : Info} (h : PostInv n ws st) {L R : List QOb} {b : Bool} (hl : (⟨L, bra b, R⟩ : Layer QOb QBox).dom = qubits ws.length) {v Ψ : List Nat → ℂ}
    (hv : Projects n ws st.postmap v Ψ) : ∃ ws' st', readStep st ⟨L, bra b, R⟩ = .ok st' ∧ PostInv n ws' st' ∧ st'.gates = st.gates ∧
      (⟨L, bra b, R⟩ : Layer QOb QBox).cod = qubits ws'.length ∧ Projects n ws' st'.postmap (tnCat.interp.act ⟨L, bra b, R⟩ v) Ψ := by
  have hl' : L ++ [QOb.qubit] ++ R = qubits ws.length := hl
  obtain ⟨q1, _, q3, q4⟩ := qubits_split hl'
  have hlt : L.length < ws.length := by simp at q4; omega
  have hnd : ws.Nodup := h.sub.nodup List.nodup_range
  have hw : ws = ws.take L.length ++ ws[L.length] :: ws.drop (L.length + 1) := by rw [List.getElem_cons_drop, List.take_append_drop]
  generalize hwl : ws.take L.length = wl at hw
  generalize hwr : ws.drop (L.length + 1) = wr at hw
  generalize hwq : ws[L.length] = q at hw
  have hwll : wl.length = L.length := by rw [← hwl, List.length_take]; omega
  have hcount : L.count QOb.qubit = L.length := by rw [q1]; simp [qubits]
  have hget : st.avail[L.count QOb.qubit]? = some q := by rw [h.avail, hcount, List.getElem?_eq_getElem hlt, hwq]
  have hqn : q < n ∧ q ∉ st.postmap.map Prod.fst := (h.mem q).1 (by rw [hw]; simp)
  have hql : q ∉ wl := by
    intro hm
    rw [hw, List.nodup_append] at hnd
    exact hnd.2.2 q hm q (by simp) rfl
  have hqr : q ∉ wr := by
    intro hm
    rw [hw, List.nodup_append, List.nodup_cons] at hnd
    exact hnd.2.1.1 hm
  have her : ws.erase q = wl ++ wr := by rw [hw, List.erase_append_right _ hql, List.erase_cons_head]
  refine ⟨wl ++ wr, { st with avail := st.avail.erase q, bitmap := dictSet st.bitmap q st.bitmap.length, postmap := dictSet st.postmap q (if b then 1 else 0) }, ?_, ?_, rfl, ?_, ?_⟩
  · simp only [readStep, hget]
  · have hset := dictSet_new st.postmap q (if b then 1 else 0) hqn.2
    refine ⟨by show st.avail.erase q = _; rw [h.avail, her], ?_, ?_, ?_, ?_, ?_⟩
    · refine List.Sublist.trans ?_ h.sub
      rw [hw]
      exact List.Sublist.append_left (List.sublist_cons_self _ _) _
    · intro p
      simp only [hset, List.map_append, List.mem_append, not_or, List.map_cons, List.map_nil, List.mem_singleton]
      have := h.mem p
      rw [hw, List.mem_append, List.mem_cons] at this
      constructor
      · intro hp
        obtain ⟨a, b'⟩ := this.1 (hp.imp id .inr)
        refine ⟨a, b', ?_⟩
        rintro rfl
        exact hp.elim hql hqr
      · rintro ⟨a, b', c⟩
        rcases this.2 ⟨a, b'⟩ with hh | hh | hh
        · exact .inl hh
        · exact absurd hh c
        · exact .inr hh
    · simp only [hset, List.map_append, List.map_cons, List.map_nil]
      rw [List.nodup_append]
      refine ⟨h.nodup, by simp, ?_⟩
      intro a ha c hc e
      rw [List.mem_singleton] at hc
      rw [e, hc] at ha
      exact hqn.2 ha
    · intro p hp
      simp only [hset, List.map_append, List.mem_append, List.map_cons, List.map_nil, List.mem_singleton] at hp
      rcases hp with hp | rfl
      · exact h.lt p hp
      · exact hqn.1
    · intro p hp
      simp only [hset, List.mem_append, List.mem_singleton] at hp
      rcases hp with hp | rfl
      · exact h.bit p hp
      · cases b <;> simp
  · show L ++ [] ++ R = _
    rw [q1, q3, List.append_nil, qubits, qubits, qubits, ← List.replicate_add]
    congr 1
    have := congrArg List.length hw
    simp at this q4 ⊢
    omega
  · intro z hz hp
    have hset := dictSet_new st.postmap q (if b then 1 else 0) hqn.2
    simp only [hset, List.mem_append, List.mem_singleton] at hp
    have h1 := hv z hz (fun p hp' => hp p (.inl hp'))
    have h2 := hp (q, if b then 1 else 0) (.inr rfl)
    rw [List.map_append, bra_layer L R v b (by rw [List.length_map, hwll]), ← h1]
    conv_rhs => rw [hw]
    rw [List.map_append, List.map_cons]
    simp only at h2
    rw [h2]

theorem post_run {n : Nat} (ls : List (Layer QOb QBox)) {ws : List Nat} {st : Info} {t c : List QOb} (h : PostInv n ws st) (ht : t = qubits ws.length) (hc : Chain t ls c)
    (hb : ∀ l ∈ ls, ∃ b, l.box = bra b) {v Ψ : List Nat → ℂ} (hv : Projects n ws st.postmap v Ψ) :
    ∃ ws' st', readLoop st ls = .ok st' ∧ PostInv n ws' st' ∧ st'.gates = st.gates ∧ c = qubits ws'.length ∧ Projects n ws' st'.postmap (tnCat.interp.run ls v) Ψ := by
  induction ls generalizing ws st v t with
  | nil =>
    obtain rfl : t = c := hc
    exact ⟨ws, st, rfl, h, rfl, ht, hv⟩
  | cons l ls ih =>
    obtain ⟨h1, h2⟩ := hc
    obtain ⟨L, b, R⟩ := l
    obtain ⟨x, hx⟩ := hb _ (List.mem_cons_self ..)
    obtain rfl : b = bra x := hx
    obtain ⟨ws1, st1, e1, e2, e3, e4, e5⟩ := post_layer h (h1.trans ht) hv
    obtain ⟨ws2, st2, f1, f2, f3, f4, f5⟩ := ih e2 e4 h2 (fun l hl => hb l (List.mem_cons_of_mem _ hl)) e5
    refine ⟨ws2, st2, ?_, f2, f3.trans e3, f4, f5⟩
    rw [readLoop, e1]
    exact f1

/-! ## The states that are kept -/

theorem plPlace_length (s qs bs : List Nat) : (plPlace s qs bs).length = s.length := by
  induction qs generalizing s bs with
  | nil => simp [plPlace]
  | cons q qs ih => cases bs with
    | nil => simp [plPlace]
    | cons b bs => rw [plPlace, ih, List.length_set]

theorem plPlace_other (s qs bs : List Nat) (q : Nat) (h : q ∉ qs) : (plPlace s qs bs).getD q 0 = s.getD q 0 := by
  induction qs generalizing s bs with
  | nil => simp [plPlace]
  | cons p qs ih => cases bs with
    | nil => simp [plPlace]
    | cons b bs =>
      rw [List.mem_cons, not_or] at h
      rw [plPlace, ih _ _ h.2, List.getD_eq_getElem?_getD, List.getElem?_set_ne (fun e => h.1 e.symm), ← List.getD_eq_getElem?_getD]

theorem plPlace_open (s qs bs : List Nat) (hn : qs.Nodup) (hl : bs.length = qs.length) (hs : ∀ q ∈ qs, q < s.length) :
    qs.map (fun q => (plPlace s qs bs).getD q 0) = bs := by
  induction qs generalizing s bs with
  | nil => rw [List.length_eq_zero_iff.1 hl]; rfl
  | cons q qs ih => cases bs with
    | nil => simp at hl
    | cons b bs =>
      rw [List.nodup_cons] at hn
      rw [List.map_cons, plPlace, plPlace_other _ _ _ _ hn.1,
        ih (s.set q b) bs hn.2 (by simpa using hl) (fun p hp => by rw [List.length_set]; exact hs p (List.mem_cons_of_mem _ hp))]
      congr 1
      rw [getD_set _ _ _ _ (hs q (by simp)), if_pos rfl]

theorem plPlace_bits {n : Nat} {s qs bs : List Nat} (h : Bits n s) (hb : ∀ b ∈ bs, b < 2) : Bits n (plPlace s qs bs) := by
  induction qs generalizing s bs with
  | nil => simpa [plPlace] using h
  | cons q qs ih => cases bs with
    | nil => simpa [plPlace] using h
    | cons b bs =>
      rw [plPlace]
      exact ih (tk_bits_set h (hb b (by simp))) (fun b hb' => hb b (List.mem_cons_of_mem _ hb'))

theorem plFixed_bits (n : Nat) (post : List (Nat × Nat)) : Bits n (plFixed n post) := by
  refine ⟨by simp [plFixed], fun b hb => ?_⟩
  obtain ⟨i, _, rfl⟩ := List.mem_map.1 hb
  split <;> omega

theorem plFixed_post {n : Nat} {post : List (Nat × Nat)} (hn : (post.map Prod.fst).Nodup) (hb : ∀ p ∈ post, p.2 < 2) {p : Nat × Nat} (hp : p ∈ post) (hlt : p.1 < n) :
    (plFixed n post).getD p.1 0 = p.2 := by
  have hf : post.find? (fun p' => p'.1 = p.1) = some p := by
    cases hq : post.find? (fun p' => p'.1 = p.1) with
    | none =>
      rw [List.find?_eq_none] at hq
      exact absurd (by simp) (hq p hp)
    | some r =>
      have h1 : r.1 = p.1 := by simpa using List.find?_some hq
      have h2 := List.mem_of_find?_eq_some hq
      exact congrArg some (List.inj_on_of_nodup_map hn h2 hp h1)
  have := hb p hp
  rw [plFixed, List.getD_eq_getElem?_getD, List.getElem?_map, List.getElem?_range hlt]
  simp only [Option.map_some, Option.getD_some, hf]
  split <;> omega

theorem binary_ravel (s : List Nat) (a : Nat) : s.foldl (fun a b => 2 * a + b) a = a * 2 ^ s.length + ravel (List.replicate s.length 2) s := by
  induction s generalizing a with
  | nil => simp [ravel]
  | cons b s ih =>
    rw [List.foldl_cons, ih, List.length_cons, List.replicate_succ, ravel, List.prod_replicate, pow_succ]
    ring

theorem inShape_bits {n : Nat} {s : List Nat} (h : Bits n s) : InShape (List.replicate n 2) s := by
  induction n generalizing s with
  | zero => rw [h.eq_nil]; exact .nil
  | succ n ih =>
    obtain ⟨b, s, rfl, hb, hs⟩ := h.uncons
    exact .cons hb (ih hs)

theorem stateList_get {n : Nat} {s : List Nat} (h : Bits n s) (v : List Nat → ℂ) : (stateList n v).getD (binary s) 0 = v s := by
  have h1 : binary s = ravel (List.replicate n 2) s := by rw [binary, binary_ravel, h.1]; simp
  rw [h1, stateList, List.getD_eq_getElem?_getD, List.getElem?_map, NdArray.allIdx_ravel (inShape_bits h)]
  rfl

theorem bits_allIdx {n : Nat} {s : List Nat} : s ∈ allIdx (List.replicate n 2) → Bits n s := by
  induction n generalizing s with
  | zero => intro h; simp [allIdx] at h; rw [h]; exact Bits.nil
  | succ n ih =>
    intro h
    rw [List.replicate_succ, allIdx] at h
    obtain ⟨i, hi, h⟩ := List.mem_flatMap.1 h
    obtain ⟨t, ht, rfl⟩ := List.mem_map.1 h
    have := ih ht
    refine ⟨by simp [this.1], fun b hb => ?_⟩
    rcases List.mem_cons.1 hb with rfl | hb
    · exact List.mem_range.1 hi
    · exact this.2 b hb

theorem allIdx_bits_length (n : Nat) : (allIdx (List.replicate n 2)).length = 2 ^ n := by
  induction n with
  | zero => rfl
  | succ n ih =>
    rw [List.replicate_succ, allIdx]
    simp [List.range_succ, ih, pow_succ]
    omega

/-- The entries that are kept, in the order of the values of the open qubits. -/
theorem plTake_valid {n : Nat} {ws : List Nat} {st : Info} (h : PostInv n ws st) {v Ψ w : List Nat → ℂ} (hv : Projects n ws st.postmap v Ψ) (f : ℂ → ℂ) (hw : ∀ z, Bits n z → w z = f (Ψ z)) :
    plTake n w (validStates n st.postmap) = (allIdx (List.replicate ws.length 2)).map (fun β => f (v β)) ∧ n - st.postmap.length = ws.length := by
  have hopen : plOpen n st.postmap = ws := by
    refine List.Pairwise.eq_of_mem_iff (r := (· < ·)) ?_ ?_ (fun q => ?_)
    · exact List.pairwise_lt_range.filter _
    · exact List.pairwise_lt_range.sublist h.sub
    · rw [plOpen, List.mem_filter, h.mem]
      simp only [List.mem_range, decide_eq_true_eq]
  have hwn : ws.Nodup := h.sub.nodup List.nodup_range
  constructor
  · rw [plTake, validStates, hopen, List.map_map]
    refine List.map_congr_left (fun β hβ => ?_)
    have hb := bits_allIdx hβ
    have hz : Bits n (plPlace (plFixed n st.postmap) ws β) := plPlace_bits (plFixed_bits n _) hb.2
    rw [Function.comp, stateList_get hz, hw _ hz]
    congr 1
    rw [← hv _ hz, plPlace_open _ _ _ hwn hb.1 (fun q hq => by rw [(plFixed_bits n _).1]; exact ((h.mem q).1 hq).1)]
    intro p hp
    have hk : p.1 ∈ st.postmap.map Prod.fst := List.mem_map.2 ⟨p, hp, rfl⟩
    rw [plPlace_other _ _ _ _ (fun hm => ((h.mem _).1 hm).2 hk), plFixed_post h.nodup h.bit hp (h.lt _ hk)]
  · have hperm : (ws ++ st.postmap.map Prod.fst).Perm (List.range n) := by
      rw [List.perm_ext_iff_of_nodup]
      · intro q
        rw [List.mem_append, h.mem, List.mem_range]
        constructor
        · rintro (hh | hh)
          · exact hh.1
          · exact h.lt q hh
        · intro hq
          by_cases hm : q ∈ st.postmap.map Prod.fst
          · exact .inr hm
          · exact .inl ⟨hq, hm⟩
      · rw [List.nodup_append]
        refine ⟨hwn, h.nodup, fun a ha b hb e => ?_⟩
        rw [e] at ha
        exact ((h.mem _).1 ha).2 hb
      · exact List.nodup_range
    have := hperm.length_eq
    simp at this
    omega

/-! ## Circuits -/

/-- A circuit that starts with `n` qubits in the state 0, goes on with gates that can be converted and ends with boxes of the kind `T`. -/
structure PlCirc (T : QBox → Prop) (d : Diagram QOb QBox) (n : Nat) (gs tl : List (Layer QOb QBox)) : Prop where
  layers : d.layers = ketLayers 0 n ++ (gs ++ tl)
  dom : d.dom = []
  wt : d.WT
  gates : ∀ l ∈ gs, PlGate l.box
  tail : ∀ l ∈ tl, T l.box

theorem PlGate.flags {b : QBox} (h : PlGate b) : b.isKet = false ∧ b.isEnd = false ∧ b.isMeasure = false := by
  have := h.isGate
  cases b <;> simp_all [QBox.isGate, isKet, isEnd, isMeasure]

theorem PlGate.notMixed {b : QBox} (h : PlGate b) : b.isMixed = false := by
  rcases h.pure with h | h
  · exact h.2.1
  · rw [h]; rfl

variable {T : QBox → Prop} {d : Diagram QOb QBox} {n : Nat} {gs tl : List (Layer QOb QBox)}

theorem PlCirc.numKets (h : PlCirc T d n gs tl) (hT : ∀ b, T b → b.isEnd = true) : QBox.numKets d.layers = n := by
  rw [QBox.numKets, h.layers, List.countP_append, List.countP_append]
  have h1 : (ketLayers 0 n).countP (fun l => l.box.isKet) = n := by
    rw [List.countP_eq_length.2, ketLayers_length]
    intro l hl
    rw [(mem_ketLayers l hl).1]
    rfl
  have h2 : gs.countP (fun l => l.box.isKet) = 0 := by
    rw [List.countP_eq_zero]
    intro l hl
    simp [(h.gates l hl).flags.1]
  have h3 : tl.countP (fun l => l.box.isKet) = 0 := by
    rw [List.countP_eq_zero]
    intro l hl hk
    have := hT _ (h.tail l hl)
    cases hb : l.box <;> rw [hb] at hk this <;> simp [isKet, isEnd] at hk this
  omega

theorem PlCirc.circuital (h : PlCirc T d n gs tl) (hT : ∀ b, T b → b.isEnd = true) : isCircuital d = true := by
  rw [C51_circuital]
  refine ⟨h.dom, ketLayers 0 n, gs ++ tl, h.layers, fun l hl => ⟨by rw [(mem_ketLayers l hl).1]; rfl, (mem_ketLayers l hl).2⟩, fun l hl => ?_, ?_⟩
  · rcases List.mem_append.1 hl with h' | h'
    · exact (h.gates l h').flags.1
    · have := hT _ (h.tail l h')
      cases hb : l.box <;> rw [hb] at this <;> simp [isKet, isEnd] at this ⊢
  · intro i k j li lk lj hik hkj hi hk hj hli hlj
    have hi' : gs.length ≤ i := by
      by_contra hc
      rw [List.getElem?_append_left (by omega)] at hi
      have := (h.gates li (List.mem_of_getElem? hi)).flags.2.1
      rw [this] at hli; cases hli
    rw [List.getElem?_append_right (by omega)] at hk
    exact .inl (hT _ (h.tail lk (List.mem_of_getElem? hk)))

theorem PlCirc.noMeasure (h : PlCirc T d n gs tl) (hT : ∀ b, T b → b.isEnd = true) : d.boxes.any isMeasure = false := by
  rw [List.any_eq_false]
  intro b hb
  obtain ⟨l, hl, rfl⟩ := List.mem_map.1 hb
  rw [h.layers, List.mem_append, List.mem_append] at hl
  rcases hl with hl | hl | hl
  · rw [(mem_ketLayers l hl).1]; simp [isMeasure]
  · simp [(h.gates l hl).flags.2.2]
  · have := hT _ (h.tail l hl)
    cases hb : l.box <;> rw [hb] at this <;> simp [isMeasure, isEnd] at this ⊢

/-- The gates of a circuit, whatever its end. -/
theorem PlCirc.run (h : PlCirc T d n gs tl) (hT : ∀ b, T b → b.isEnd = true) : Chain (qubits n) tl d.cod ∧ Chain [] (ketLayers 0 n ++ gs) (qubits n) ∧
    ∃ G : List Gate, (∀ st, readLoop ⟨List.range n, G, [], [], []⟩ tl = .ok st → readoff d = .ok (n, st)) ∧
      G.map Gate.number = gs.map (fun l => l.box.numberOf) ∧ (∀ g ∈ G, g.number = none → g.op.Fits) ∧
      ∀ y, Bits n y → tnCat.interp.run (ketLayers 0 n ++ gs) (fun s => if s = [] then 1 else 0) y =
        (G.filterMap Gate.number).prod * plAll ((G.filter (fun g => g.number.isNone)).map Gate.op) (fun y => if y = List.replicate n 0 then 1 else 0) y := by
  have hw : Chain d.dom d.layers d.cod := h.wt
  rw [h.dom, h.layers] at hw
  obtain ⟨a, c1, c2⟩ := chain_append_iff.1 hw
  obtain ⟨b, c2, c3⟩ := chain_append_iff.1 c2
  have ha : a = qubits n := chain_unique _ c1 (by have := chain_kets 0 n; rwa [Nat.zero_add] at this)
  obtain ⟨hb, G, g1, g2, g3, g4⟩ := pl_gates gs c2 ha h.gates
  rw [hb] at c3 c2
  refine ⟨c3, c1.append c2, G, ?_, g2, g3, ?_⟩
  · intro st hst
    unfold readoff
    rw [h.circuital hT, h.numKets hT, h.layers, readLoop_kets, g1]
    simp only [Bool.not_true, Bool.false_eq_true, if_false, List.nil_append]
    rw [hst]
  · intro y hy
    rw [Interp.run_append, g4 _ y hy]
    refine congrArg (_ * ·) (plAll_congr _ (fun z hz => ?_) hy)
    have := run_kets 0 n (fun s => if s = [] then (1 : ℂ) else 0) [] z Bits.nil hz
    rw [List.nil_append] at this
    rw [this]; simp

/-- Scalars do not follow one another. -/
def Apart (gs : List (Layer QOb QBox)) : Prop := gs.IsChain (fun a b => ¬ (a.box.isNumber = true ∧ b.box.isNumber = true))

theorem apart_gates {G : List Gate} {gs : List (Layer QOb QBox)} (h : G.map Gate.number = gs.map (fun l => l.box.numberOf)) :
    G.IsChain (fun a b => ¬ (a.number.isSome = true ∧ b.number.isSome = true)) ↔ Apart gs := by
  have h1 := List.isChain_map (R := fun a b : Option ℂ => ¬ (a.isSome = true ∧ b.isSome = true)) Gate.number (l := G)
  have h2 := List.isChain_map (R := fun a b : Option ℂ => ¬ (a.isSome = true ∧ b.isSome = true)) (fun l : Layer QOb QBox => l.box.numberOf) (l := gs)
  rw [← h1, h, h2]
  rfl

/-- The product of the scalars. -/
def factor (gs : List (Layer QOb QBox)) : ℂ := (gs.filterMap (fun l => l.box.numberOf)).prod

theorem factor_gates {G : List Gate} {gs : List (Layer QOb QBox)} (h : G.map Gate.number = gs.map (fun l => l.box.numberOf)) : (G.filterMap Gate.number).prod = factor gs := by
  have h1 : G.filterMap Gate.number = (G.map Gate.number).filterMap id := by rw [List.filterMap_map]; rfl
  have h2 : gs.filterMap (fun l => l.box.numberOf) = (gs.map (fun l => l.box.numberOf)).filterMap id := by rw [List.filterMap_map]; rfl
  rw [factor, h1, h2, h]

/-- The end of a pure circuit. -/
def IsBra (b : QBox) : Prop := ∃ v, b = bra v

theorem isBra_end (b : QBox) (h : IsBra b) : b.isEnd = true := by obtain ⟨v, rfl⟩ := h; rfl

theorem PlCirc.pureOK (h : PlCirc IsBra d n gs tl) : PureOK d ∧ mixedDiagram d = false := by
  obtain ⟨c3, _, _⟩ := h.run isBra_end
  constructor
  · refine ⟨h.wt, fun l hl => ?_⟩
    rw [h.layers, List.mem_append, List.mem_append] at hl
    rcases hl with hl | hl | hl
    · rw [(mem_ketLayers l hl).1]; exact .inl trivial
    · rcases (h.gates l hl).pure with g | g
      · exact .inl g.1
      · exact .inr ⟨_, _, g⟩
    · obtain ⟨v, hv⟩ := h.tail l hl
      rw [hv]; exact .inl trivial
  · have hinit : PostInv n (List.range n) ⟨List.range n, [], [], [], []⟩ := ⟨rfl, List.Sublist.refl _, by simp, by simp, by simp, by simp⟩
    obtain ⟨ws, _, _, _, _, hc, _⟩ := post_run tl hinit (by rw [List.length_range]) c3 h.tail (v := fun _ => 0) (Ψ := fun _ => 0) (fun _ _ _ => rfl)
    have hbits : QOb.bit ∉ d.dom ++ d.cod := by
      rw [h.dom, List.nil_append, hc]
      intro hm
      exact absurd (List.mem_replicate.1 hm).2 (by simp)
    have hany : d.boxes.any isMixed = false := by
      rw [List.any_eq_false]
      intro b hb
      obtain ⟨l, hl, rfl⟩ := List.mem_map.1 hb
      rw [h.layers, List.mem_append, List.mem_append] at hl
      rcases hl with hl | hl | hl
      · rw [(mem_ketLayers l hl).1]; simp [isMixed]
      · simp [(h.gates l hl).notMixed]
      · obtain ⟨v, hv⟩ := h.tail l hl
        rw [hv]; simp [isMixed]
    rw [mixedDiagram, hany, decide_eq_false hbits]
    rfl

/-- What `to_pennylane` and lambeq make of a pure circuit. -/
theorem PlCirc.pure (h : PlCirc IsBra d n gs tl) (ha : Apart gs) (probs : Bool) :
    ∃ ws st F cs, toPennylane d probs = .ok ⟨n, cs, st.postmap, false, probs, factor gs⟩ ∧ (∀ c ∈ cs, PlOp.Fits c) ∧ eval d false = .ok F ∧ PostInv n ws st ∧ d.cod = qubits ws.length ∧
      ∃ v, Projects n ws st.postmap v (fun y => factor gs * plAll cs (fun y => if y = List.replicate n 0 then 1 else 0) y) ∧ ∀ β, Bits ws.length β → F β = v β := by
  obtain ⟨c3, c12, G, g1, g2, g3, g4⟩ := h.run isBra_end
  obtain ⟨hok, hmix⟩ := h.pureOK
  have hinit : PostInv n (List.range n) ⟨List.range n, G, [], [], []⟩ := ⟨rfl, List.Sublist.refl _, by simp, by simp, by simp, by simp⟩
  have hproj : Projects n (List.range n) [] (tnCat.interp.run (ketLayers 0 n ++ gs) (fun s => if s = [] then 1 else 0))
      (fun y => (G.filterMap Gate.number).prod * plAll ((G.filter (fun g => g.number.isNone)).map Gate.op) (fun y => if y = List.replicate n 0 then 1 else 0) y) := by
    intro z hz _
    have : (List.range n).map (fun q => z.getD q 0) = z := by
      refine eq_of_getD (n := n) (by simp) hz.1 (fun k hk => ?_)
      simp [List.getD_eq_getElem?_getD, hk]
    rw [this, g4 z hz]
  obtain ⟨ws, st, e1, e2, e3, e4, e5⟩ := post_run tl hinit (by rw [List.length_range]) c3 h.tail hproj
  obtain ⟨F, f1, f2⟩ := pureEval_spec hok
  rw [factor_gates g2] at e5
  refine ⟨ws, st, F, (G.filter (fun g => g.number.isNone)).map Gate.op, ?_, ?_, ?_, e2, e4, _, e5, ?_⟩
  · have hg : st.gates = G := e3
    unfold toPennylane
    rw [h.noMeasure isBra_end, h.circuital isBra_end, hmix]
    simp only [Bool.false_eq_true, if_false, if_true]
    unfold plFrom
    rw [g1 st e1]
    simp only
    rw [hg, takeScalars_apart G ((apart_gates g2).2 ha), factor_gates g2]
    simp only
    rw [plOps_fits _ (fun g hg => g3 g (List.mem_of_mem_filter hg) (by simpa using (List.mem_filter.1 hg).2))]
  · intro c hc
    obtain ⟨g, hg, rfl⟩ := List.mem_map.1 hc
    exact g3 g (List.mem_of_mem_filter hg) (by simpa using (List.mem_filter.1 hg).2)
  · rw [eval, hmix]
    exact f1
  · intro β hβ
    have := f2 [] β (by rw [h.dom]; exact Bits.nil) (by rw [e4, qubits_length]; exact hβ)
    rw [List.nil_append] at this
    rw [this, ← Interp.run_append, List.append_assoc, ← h.layers]
    rfl

theorem plShape_spec (k : Nat) (f : List Nat → ℂ) : plShape k ((allIdx (List.replicate k 2)).map f) = ⟨if k = 0 then [1] else List.replicate k 2, (allIdx (List.replicate k 2)).map f⟩ := by
  unfold plShape
  rw [List.length_map, allIdx_bits_length]
  by_cases h : k = 0
  · subst h; simp
  · rw [if_neg h, if_neg]
    intro e
    have := (Nat.pow_eq_one.1 e)
    omega

/-- **C95 (amplitudes).** A circuit that prepares qubits, goes on with gates of the table `PlGateOf`, swaps of qubits and scalars (no two in succession) and ends with post-selections: PennyLane
gives the array of the entries of `d.eval()`, in C order, with an axis for each open qubit in the order of the outputs (and the shape `(1,)` if there is none). -/
theorem C95_amplitudes_partial (h : PlCirc IsBra d n gs tl) (ha : Apart gs) : ∃ F, eval d false = .ok F ∧
    pennylane d false = .ok ⟨if d.cod.length = 0 then [1] else List.replicate d.cod.length 2, (allIdx (List.replicate d.cod.length 2)).map F⟩ := by
  obtain ⟨ws, st, F, cs, e1, e2, e3, e4, e5, v, e6, e7⟩ := h.pure ha false
  refine ⟨F, e3, ?_⟩
  have hcod : d.cod.length = ws.length := by rw [e5, qubits_length]
  unfold pennylane
  rw [e1]
  simp only
  unfold plEval
  rw [plRun_fits _ e2]
  simp only
  obtain ⟨t1, t2⟩ := plTake_valid e4 e6 (fun x => x) (w := fun z => (factor gs) * plAll cs (fun y => if y = List.replicate n 0 then 1 else 0) z) (fun _ _ => rfl)
  have hmul : (plTake n (plAll cs (fun y => if y = List.replicate n 0 then 1 else 0)) (validStates n st.postmap)).map (fun x => x * (factor gs)) =
      plTake n (fun z => (factor gs) * plAll cs (fun y => if y = List.replicate n 0 then 1 else 0) z) (validStates n st.postmap) := by
    unfold plTake
    rw [List.map_map]
    refine List.map_congr_left (fun i _ => ?_)
    simp only [Function.comp, stateList, List.getD_eq_getElem?_getD, List.getElem?_map]
    cases (allIdx (List.replicate n 2))[i]? with
    | none => simp
    | some y => simp [mul_comm]
  unfold plSelect
  simp only [Bool.false_eq_true, if_false]
  rw [hmul, t1, t2, plShape_spec, hcod]
  congr 2
  exact List.map_congr_left (fun β hβ => (e7 β (bits_allIdx hβ)).symm)

/-- **C95 (probabilities).** With `probabilities`, if the product of the scalars is real, PennyLane gives the squares of the absolute values. -/
theorem C95_probabilities_partial (h : PlCirc IsBra d n gs tl) (ha : Apart gs) (hr : (factor gs).im = 0) : ∃ F, eval d false = .ok F ∧
    pennylane d true = .ok ⟨if d.cod.length = 0 then [1] else List.replicate d.cod.length 2, (allIdx (List.replicate d.cod.length 2)).map (fun β => (Complex.normSq (F β) : ℂ))⟩ := by
  obtain ⟨ws, st, F, cs, e1, e2, e3, e4, e5, v, e6, e7⟩ := h.pure ha true
  refine ⟨F, e3, ?_⟩
  have hcod : d.cod.length = ws.length := by rw [e5, qubits_length]
  unfold pennylane
  rw [e1]
  simp only
  unfold plEval
  rw [plRun_fits _ e2]
  simp only
  have hκ : (Complex.normSq (factor gs) : ℂ) = (factor gs) ^ 2 := by
    obtain ⟨x, hx⟩ : ∃ x : ℝ, factor gs = x := ⟨(factor gs).re, by apply Complex.ext <;> simp [hr]⟩
    rw [hx, Complex.normSq_ofReal]
    push_cast
    ring
  obtain ⟨t1, t2⟩ := plTake_valid e4 e6 (fun x => (Complex.normSq x : ℂ)) (w := fun z => (Complex.normSq (plAll cs (fun y => if y = List.replicate n 0 then 1 else 0) z) : ℂ) * (factor gs) ^ 2)
    (fun z _ => by
      simp only [Complex.normSq_mul]
      push_cast
      rw [hκ, mul_comm])
  have hmul : (plTake n (fun y => (Complex.normSq (plAll cs (fun y => if y = List.replicate n 0 then 1 else 0) y) : ℂ)) (validStates n st.postmap)).map (fun x => x * (factor gs) ^ 2) =
      plTake n (fun z => (Complex.normSq (plAll cs (fun y => if y = List.replicate n 0 then 1 else 0) z) : ℂ) * (factor gs) ^ 2) (validStates n st.postmap) := by
    unfold plTake
    rw [List.map_map]
    refine List.map_congr_left (fun i _ => ?_)
    simp only [Function.comp, stateList, List.getD_eq_getElem?_getD, List.getElem?_map]
    cases (allIdx (List.replicate n 2))[i]? with
    | none => simp
    | some y => simp
  unfold plSelect
  simp only [Bool.false_eq_true, if_false, if_true, hr, ne_eq, not_true_eq_false]
  rw [hmul, t1, t2, plShape_spec, hcod]
  congr 2
  exact List.map_congr_left (fun β hβ => by rw [e7 β (bits_allIdx hβ)])

/-- C95, refuted in general: if two scalars follow one another, `to_pennylane` raises `KeyError`. -/
theorem C95_refuted_scalars (h : PlCirc IsBra d n gs tl) (ha : ¬ Apart gs) (probs : Bool) : toPennylane d probs = .error .keyError := by
  obtain ⟨c3, c12, G, g1, g2, g3, g4⟩ := h.run isBra_end
  have hinit : PostInv n (List.range n) ⟨List.range n, G, [], [], []⟩ := ⟨rfl, List.Sublist.refl _, by simp, by simp, by simp, by simp⟩
  obtain ⟨ws, st, e1, e2, e3, e4, e5⟩ := post_run tl hinit (by rw [List.length_range]) c3 h.tail (v := fun _ => 0) (Ψ := fun _ => 0) (fun _ _ _ => rfl)
  have hg : st.gates = G := e3
  unfold toPennylane
  rw [h.noMeasure isBra_end, h.circuital isBra_end]
  simp only [Bool.false_eq_true, if_false, if_true]
  unfold plFrom
  rw [g1 st e1]
  simp only
  rw [hg, plOps_number _ (takeScalars_left G (fun hh => ha ((apart_gates g2).1 hh)))]

end
end QBox
end Lambeq
