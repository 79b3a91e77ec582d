import Verif.Quantum.ExportRun

/-!
# Export of circuits (C51): measurements, post-selections and discards
-/

namespace Lambeq
open Diagram
set_option linter.unusedSectionVars false
set_option linter.unusedSimpArgs false

namespace QBox
noncomputable section

theorem sum_idx_qubit (f : List Nat → ℂ) : ∑ i ∈ cqI.idx [QOb.qubit], f i = f [0] + f [1] + f [2] + f [3] := by
  rw [Interp.sum_idx_cons]
  show ∑ k ∈ Finset.range 4, ∑ y ∈ cqI.idx [], f (k :: y) = _
  simp only [Interp.idx, Finset.sum_singleton, Finset.sum_range_succ, Finset.range_zero, Finset.sum_empty, zero_add]

theorem act_measure (L R : List QOb) (v : List Nat → ℂ) {sl sr : List Nat} {b : Nat} (hsl : sl.length = L.length) (hb : b < 2) :
    cqI.act ⟨L, measure, R⟩ v (sl ++ ([b] ++ sr)) = v (sl ++ ([3 * b] ++ sr)) := by
  rw [cqI.act_split ⟨L, measure, R⟩ v sr hsl rfl]
  show ∑ i ∈ cqI.idx [QOb.qubit], v (sl ++ (i ++ sr)) * cqI.ten measure i [b] = _
  have key : ∀ q r, q < 2 → r < 2 → cqI.ten measure [2 * q + r] [b] = if q = b ∧ r = b then 1 else 0 := by
    intro q r hq hr
    rw [← get_copyArray_three hq hr hb]
    show (copyArray ℂ 3 2).get [(2 * q + r) / 2, (2 * q + r) % 2, b] = _
    rw [show (2 * q + r) / 2 = q by omega, show (2 * q + r) % 2 = r by omega]
  rw [sum_idx_qubit, key 0 0 (by omega) (by omega), key 0 1 (by omega) (by omega), key 1 0 (by omega) (by omega), key 1 1 (by omega) (by omega)]
  rcases (by omega : b = 0 ∨ b = 1) with rfl | rfl <;> simp

theorem act_bra (L R : List QOb) (v : List Nat → ℂ) {sl sr : List Nat} (b : Bool) (hsl : sl.length = L.length) :
    cqI.act ⟨L, bra b, R⟩ v (sl ++ sr) = v (sl ++ ([3 * (if b then 1 else 0)] ++ sr)) := by
  have := cqI.act_split ⟨L, bra b, R⟩ v (yl := sl) (c := []) sr hsl rfl
  rw [List.nil_append] at this
  rw [this]
  show ∑ i ∈ cqI.idx [QOb.qubit], v (sl ++ (i ++ sr)) * cqI.ten (bra b) i [] = _
  have key : ∀ q r, q < 2 → r < 2 → cqI.ten (bra b) [2 * q + r] [] = if q = (if b then 1 else 0) ∧ r = (if b then 1 else 0) then 1 else 0 := by
    intro q r hq hr
    show (⟨[2], if b then [0, 1] else [1, 0]⟩ : NdArray ℂ).get [(2 * q + r) / 2] * star ((⟨[2], if b then [0, 1] else [1, 0]⟩ : NdArray ℂ).get [(2 * q + r) % 2]) = _
    rw [show (2 * q + r) / 2 = q by omega, show (2 * q + r) % 2 = r by omega]
    rcases (by omega : q = 0 ∨ q = 1) with rfl | rfl <;> rcases (by omega : r = 0 ∨ r = 1) with rfl | rfl <;> cases b <;> simp [NdArray.get, ravel]
  rw [sum_idx_qubit, key 0 0 (by omega) (by omega), key 0 1 (by omega) (by omega), key 1 0 (by omega) (by omega), key 1 1 (by omega) (by omega)]
  cases b <;> simp

theorem act_discard (L R : List QOb) (v : List Nat → ℂ) {sl sr : List Nat} (hsl : sl.length = L.length) :
    cqI.act ⟨L, discard, R⟩ v (sl ++ sr) = v (sl ++ ([0] ++ sr)) + v (sl ++ ([3] ++ sr)) := by
  have := cqI.act_split ⟨L, discard, R⟩ v (yl := sl) (c := []) sr hsl rfl
  rw [List.nil_append] at this
  rw [this]
  show ∑ i ∈ cqI.idx [QOb.qubit], v (sl ++ (i ++ sr)) * cqI.ten discard i [] = _
  have key : ∀ q r, q < 2 → r < 2 → cqI.ten discard [2 * q + r] [] = if q = r then 1 else 0 := by
    intro q r hq hr
    show (copyArray ℂ 2 2).get [(2 * q + r) / 2, (2 * q + r) % 2] = _
    rw [show (2 * q + r) / 2 = q by omega, show (2 * q + r) % 2 = r by omega]
    rw [copyArray, NdArray.get_ofFn (List.replicate 2 2) _ (show InShape (List.replicate 2 2) [q, r] from .cons hq (.cons hr .nil))]
    refine if_congr ⟨fun h => h q (by simp) r (by simp), fun h => by subst h; simp⟩ rfl rfl
  rw [sum_idx_qubit, key 0 0 (by omega) (by omega), key 0 1 (by omega) (by omega), key 1 0 (by omega) (by omega), key 1 1 (by omega) (by omega)]
  simp

/-! ## Diagonal entries -/

/-- The index at which all wires have definite values and the two copies of each qubit agree. -/
def diagIdx : List QOb → List Nat → List Nat
  | .bit :: t, a :: y => a :: diagIdx t y
  | .qubit :: t, a :: y => (3 * a) :: diagIdx t y
  | _, _ => []

theorem diagIdx_append {t t' : List QOb} {y y' : List Nat} (h : y.length = t.length) : diagIdx (t ++ t') (y ++ y') = diagIdx t y ++ diagIdx t' y' := by
  induction t generalizing y with
  | nil => cases y <;> simp_all [diagIdx]
  | cons o t ih =>
    cases y with
    | nil => simp at h
    | cons a y => cases o <;> simp [diagIdx, ih (y := y) (by simpa using h)]

theorem diagIdx_length {t : List QOb} {y : List Nat} (h : y.length = t.length) : (diagIdx t y).length = t.length := by
  induction t generalizing y with
  | nil => cases y <;> simp_all [diagIdx]
  | cons o t ih =>
    cases y with
    | nil => simp at h
    | cons a y => cases o <;> simp [diagIdx, ih (y := y) (by simpa using h)]

theorem diagIdx_qubits {n : Nat} {y : List Nat} (h : Bits n y) : diagIdx (qubits n) y ∈ cqI.idx (qubits n) ∧ qOf (qubits n) (diagIdx (qubits n) y) = y ∧
    rOf (qubits n) (diagIdx (qubits n) y) = y := by
  induction n generalizing y with
  | zero => obtain rfl := h.eq_nil; exact ⟨by simp [qubits, diagIdx, Interp.idx], rfl, rfl⟩
  | succ n ih =>
    obtain ⟨a, y, rfl, ha, hy⟩ := h.uncons
    obtain ⟨h1, h2, h3⟩ := ih hy
    have e : qubits (n + 1) = .qubit :: qubits n := List.replicate_succ
    rw [e]
    refine ⟨(cqI.mem_idx _ _).2 (.cons (show 3 * a < 4 by omega) ((cqI.mem_idx _ _).1 h1)), ?_, ?_⟩
    · rw [diagIdx, qOf, h2, show 3 * a / 2 = a by omega]
    · rw [diagIdx, rOf, h3, show 3 * a % 2 = a by omega]

theorem diagIdx_bits (n : Nat) (y : List Nat) (h : y.length = n) : diagIdx (List.replicate n QOb.bit) y = y ∧ cOf (List.replicate n QOb.bit) y = y ∧
    qOf (List.replicate n QOb.bit) y = [] ∧ rOf (List.replicate n QOb.bit) y = [] := by
  induction n generalizing y with
  | zero => obtain rfl := List.length_eq_zero_iff.1 h; exact ⟨rfl, rfl, rfl, rfl⟩
  | succ n ih =>
    cases y with
    | nil => simp at h
    | cons a y =>
      obtain ⟨h1, h2, h3, h4⟩ := ih y (by simpa using h)
      rw [List.replicate_succ, diagIdx, cOf, qOf, rOf, h1, h2, h3, h4]
      exact ⟨rfl, rfl, rfl, rfl⟩

/-! ## The loop over the tail -/

/-- The end of a circuital diagram. -/
def TailBox (b : QBox) : Prop := b = measure ∨ b = discard ∨ ∃ v, b = bra v

/-- The probability that the wires have the values `y` and the post-selections succeed, for the state `ψ`. -/
def joint (n : Nat) (ψ : List Nat → ℂ) (w : List Nat) (post : List (Nat × Nat)) (y : List Nat) : ℝ :=
  ∑ z ∈ allBits n, if w.map (fun q => z.getD q 0) = y ∧ ∀ p ∈ post, z.getD p.1 0 = p.2 then Complex.normSq (ψ z) else 0

/-- What holds after a part of the tail: the wires `ws` (qubit and type), the state of the loop of `readoff_circuital`. -/
structure TailInv (n : Nat) (ws : List (Nat × QOb)) (st : Info) : Prop where
  sub : (ws.map Prod.fst).Sublist (List.range n)
  avail : st.avail = (ws.filter (fun w => w.2 = QOb.qubit)).map Prod.fst
  bits : st.bitmap.map Prod.snd = List.range st.bitmap.length
  nodup : (st.bitmap.map Prod.fst).Nodup
  lt : ∀ q ∈ st.bitmap.map Prod.fst, q < n
  keys : ∀ q, q ∈ st.bitmap.map Prod.fst ↔ (q, QOb.bit) ∈ ws ∨ q ∈ st.postmap.map Prod.fst
  postNodup : (st.postmap.map Prod.fst).Nodup
  disj : ∀ q ∈ st.postmap.map Prod.fst, q ∉ ws.map Prod.fst

theorem dictSet_new {V : Type} (d : List (Nat × V)) (k : Nat) (v : V) (h : k ∉ d.map Prod.fst) : dictSet d k v = d ++ [(k, v)] := by
  induction d with
  | nil => rfl
  | cons a d ih =>
    simp only [List.map_cons, List.mem_cons, not_or] at h
    simp [dictSet, Ne.symm h.1, ih h.2]

theorem joint_cons {n : Nat} (ψ : List Nat → ℂ) (wl wr : List Nat) (q v : Nat) (post : List (Nat × Nat)) {yl yr : List Nat} (hl : yl.length = wl.length) :
    joint n ψ (wl ++ (q :: wr)) post (yl ++ (v :: yr)) = joint n ψ (wl ++ wr) (post ++ [(q, v)]) (yl ++ yr) := by
  unfold joint
  refine Finset.sum_congr rfl (fun z _ => if_congr ?_ rfl rfl)
  have h1 : ((wl ++ (q :: wr)).map (fun q => z.getD q 0) = yl ++ (v :: yr)) ↔ (wl ++ wr).map (fun q => z.getD q 0) = yl ++ yr ∧ z.getD q 0 = v := by
    simp only [List.map_append, List.map_cons]
    have hl' : (wl.map (fun q => z.getD q 0)).length = yl.length := by simp [hl]
    constructor
    · intro e
      obtain ⟨h1, h2⟩ := List.append_inj e hl'
      rw [List.cons.injEq] at h2
      exact ⟨by rw [h1, h2.2], h2.1⟩
    · rintro ⟨e, h3⟩
      obtain ⟨h1, h2⟩ := List.append_inj e hl'
      rw [h1, h2, h3]
  rw [h1]
  simp only [List.mem_append, List.mem_singleton, or_imp, forall_and, forall_eq]
  tauto

theorem joint_sum {n : Nat} (ψ : List Nat → ℂ) (wl wr : List Nat) (q : Nat) (post : List (Nat × Nat)) {yl yr : List Nat} (hl : yl.length = wl.length) :
    joint n ψ (wl ++ (q :: wr)) post (yl ++ (0 :: yr)) + joint n ψ (wl ++ (q :: wr)) post (yl ++ (1 :: yr)) = joint n ψ (wl ++ wr) post (yl ++ yr) := by
  rw [joint_cons ψ _ _ _ _ _ hl, joint_cons ψ _ _ _ _ _ hl]
  unfold joint
  rw [← Finset.sum_add_distrib]
  refine Finset.sum_congr rfl (fun z hz => ?_)
  have hq := getD_bits (mem_allBits.1 hz) q
  simp only [List.mem_append, List.mem_singleton, or_imp, forall_and, forall_eq]
  rcases (by omega : z.getD q 0 = 0 ∨ z.getD q 0 = 1) with h | h
  · simp only [h, zero_ne_one, and_true, and_false, if_false, add_zero]
  · simp only [h, one_ne_zero, and_true, and_false, if_false, zero_add]

theorem list_mid {α β : Type} {ws : List (α × β)} {L R : List β} {o : β} (h : ws.map Prod.snd = L ++ o :: R) :
    ∃ wl q wr, ws = wl ++ (q, o) :: wr ∧ wl.map Prod.snd = L ∧ wr.map Prod.snd = R := by
  obtain ⟨a, b, rfl, h1, h2⟩ := List.map_eq_append_iff.1 h
  obtain ⟨p, wr, rfl, h3, h4⟩ := List.map_eq_cons_iff.1 h2
  exact ⟨a, p.1, wr, by rw [← h3], h1, h4⟩

theorem count_map_filter (wl : List (Nat × QOb)) : (wl.map Prod.snd).count QOb.qubit = ((wl.filter (fun w => w.2 = QOb.qubit)).map Prod.fst).length := by
  induction wl with
  | nil => rfl
  | cons a wl ih =>
    obtain ⟨k, o⟩ := a
    cases o <;> simp [ih]

/-- One round of the loop finds the qubit of the wire. -/
theorem avail_mid {n : Nat} {wl wr : List (Nat × QOb)} {q : Nat} {st : Info} (h : TailInv n (wl ++ (q, QOb.qubit) :: wr) st) {L : List QOb} (hL : wl.map Prod.snd = L) :
    st.avail[L.count QOb.qubit]? = some q ∧ st.avail.erase q = ((wl ++ wr).filter (fun w => w.2 = QOb.qubit)).map Prod.fst ∧
    q ∉ (wl ++ wr).map Prod.fst ∧ q ∉ st.bitmap.map Prod.fst ∧ q ∉ st.postmap.map Prod.fst ∧ q < n := by
  have hnd : ((wl ++ (q, QOb.qubit) :: wr).map Prod.fst).Nodup := h.sub.nodup List.nodup_range
  have hq : q ∉ (wl ++ wr).map Prod.fst := by
    rw [List.map_append, List.map_cons, List.nodup_append] at hnd
    rw [List.map_append, List.mem_append, not_or]
    refine ⟨fun hm => hnd.2.2 q hm q (by simp) rfl, (List.nodup_cons.1 hnd.2.1).1⟩
  have hp : q ∉ st.postmap.map Prod.fst := fun hm => h.disj q hm (by simp)
  refine ⟨?_, ?_, hq, ?_, hp, ?_⟩
  · rw [← hL, count_map_filter, h.avail]; simp
  · rw [h.avail]
    simp only [List.filter_append, List.filter_cons, decide_true, if_true, List.map_append, List.map_cons]
    rw [List.erase_append_right, List.erase_cons_head]
    intro hm
    obtain ⟨w, hw, e⟩ := List.mem_map.1 hm
    exact hq (List.mem_map.2 ⟨w, List.mem_append_left _ (List.mem_filter.1 hw).1, e⟩)
  · rw [h.keys]
    rintro (hm | hm)
    · rcases List.mem_append.1 hm with hm | hm
      · exact hq (List.mem_map.2 ⟨_, List.mem_append_left _ hm, rfl⟩)
      · rcases List.mem_cons.1 hm with hm | hm
        · simp at hm
        · exact hq (List.mem_map.2 ⟨_, List.mem_append_right _ hm, rfl⟩)
    · exact hp hm
  · exact List.mem_range.1 (h.sub.subset (by simp))

/-- One layer of the tail. -/
theorem tail_layer {n : Nat} {ws : List (Nat × QOb)} {st : Info} (h : TailInv n ws st) {l : Layer QOb QBox} (hl : l.dom = ws.map Prod.snd) (hb : TailBox l.box)
    {ψ v : List Nat → ℂ} (hv : ∀ y, Bits ws.length y → v (diagIdx (ws.map Prod.snd) y) = (joint n ψ (ws.map Prod.fst) st.postmap y : ℝ)) :
    ∃ ws' st', readStep st l = .ok st' ∧ TailInv n ws' st' ∧ st'.gates = st.gates ∧ l.cod = ws'.map Prod.snd ∧
      ∀ y, Bits ws'.length y → cqI.act l v (diagIdx (ws'.map Prod.snd) y) = (joint n ψ (ws'.map Prod.fst) st'.postmap y : ℝ) := by
  obtain ⟨L, b, R⟩ := l
  change TailBox b at hb
  have hd : ws.map Prod.snd = L ++ QOb.qubit :: R := by
    rw [← hl]
    rcases hb with rfl | rfl | ⟨u, rfl⟩ <;> show L ++ [QOb.qubit] ++ R = _ <;> simp
  obtain ⟨wl, q, wr, rfl, hL, hR⟩ := list_mid hd
  obtain ⟨a1, a2, a3, a4, a5, a6⟩ := avail_mid h hL
  have hlen : wl.length = L.length := by rw [← hL, List.length_map]
  have hsubA : ((wl ++ wr).map Prod.fst).Sublist (List.range n) := by
    refine List.Sublist.trans ?_ h.sub
    simp only [List.map_append, List.map_cons]
    exact List.Sublist.append (List.Sublist.refl _) (List.sublist_cons_self _ _)
  -- the value of the diagonal entries before the layer
  have hv' : ∀ (yl yr : List Nat) (u : Nat), Bits wl.length yl → Bits wr.length yr → u < 2 →
      v (diagIdx L yl ++ ([3 * u] ++ diagIdx R yr)) = (joint n ψ (wl.map Prod.fst ++ (q :: wr.map Prod.fst)) st.postmap (yl ++ (u :: yr)) : ℝ) := by
    intro yl yr u hyl hyr hu
    have := hv (yl ++ (u :: yr)) (by
      rw [List.length_append, List.length_cons]
      exact hyl.append (hyr.cons hu))
    rw [hd, diagIdx_append (by rw [hyl.1, hlen])] at this
    simpa [diagIdx] using this
  have hpart : ∀ y, Bits (wl ++ wr).length y → ∃ yl yr, y = yl ++ yr ∧ Bits wl.length yl ∧ Bits wr.length yr := by
    intro y hy
    rw [List.length_append] at hy
    exact hy.split
  rcases hb with rfl | rfl | ⟨u, rfl⟩
  · -- measure
    refine ⟨wl ++ (q, QOb.bit) :: wr, { st with avail := st.avail.erase q, bitmap := dictSet st.bitmap q st.bitmap.length }, ?_, ?_, rfl, ?_, ?_⟩
    · simp only [readStep, a1]
    · rw [dictSet_new _ _ _ a4]
      refine ⟨by simpa using h.sub, by simpa [List.filter_append, List.filter_cons] using a2, ?_, ?_, ?_, ?_, h.postNodup, ?_⟩
      · simp [h.bits, List.range_succ]
      · rw [List.map_append, List.nodup_append]
        exact ⟨h.nodup, by simp, fun a ha b hb e => a4 (by rw [List.map_cons, List.map_nil, List.mem_singleton] at hb; have e2 : a = q := e.trans hb; exact e2 ▸ ha)⟩
      · intro p hp
        simp only [List.map_append, List.mem_append, List.map_cons, List.map_nil, List.mem_singleton] at hp
        rcases hp with hp | rfl
        · exact h.lt p hp
        · exact a6
      · intro p
        simp only [List.map_append, List.map_cons, List.map_nil, List.mem_append, List.mem_singleton, h.keys, List.mem_cons, Prod.mk.injEq, reduceCtorEq, and_false, and_true, false_or]
        tauto
      · intro p hp
        have := h.disj p hp
        simpa using this
    · show L ++ [QOb.bit] ++ R = _
      simp [hL, hR]
    · intro y hy
      rw [List.length_append, List.length_cons] at hy
      obtain ⟨yl, y', rfl, hyl, hy'⟩ := hy.split
      obtain ⟨u, yr, rfl, hu, hyr⟩ := hy'.uncons
      simp only [List.map_append, List.map_cons, hL, hR]
      rw [diagIdx_append (by rw [hyl.1, hlen]), diagIdx, ← List.singleton_append, act_measure L R v (by rw [diagIdx_length (by rw [hyl.1, hlen])]) hu,
        hv' yl yr u hyl hyr hu]
  · -- discard
    refine ⟨wl ++ wr, { st with avail := st.avail.erase q, discards := st.discards ++ [q] }, ?_, ?_, rfl, ?_, ?_⟩
    · simp only [readStep, a1]
    · refine ⟨hsubA, a2, h.bits, h.nodup, h.lt, ?_, h.postNodup, ?_⟩
      · intro p
        rw [h.keys]
        simp
      · intro p hp
        have := h.disj p hp
        simp only [List.map_append, List.map_cons, List.mem_append, List.mem_cons, not_or] at this
        rw [List.map_append, List.mem_append, not_or]
        exact ⟨this.1, this.2.2⟩
    · show L ++ [] ++ R = _
      simp [hL, hR]
    · intro y hy
      obtain ⟨yl, yr, rfl, hyl, hyr⟩ := hpart y hy
      simp only [List.map_append, hL, hR]
      rw [diagIdx_append (by rw [hyl.1, hlen]), act_discard L R v (by rw [diagIdx_length (by rw [hyl.1, hlen])]),
        hv' yl yr 0 hyl hyr (by omega), hv' yl yr 1 hyl hyr (by omega),
        ← joint_sum ψ (wl.map Prod.fst) (wr.map Prod.fst) q st.postmap (yl := yl) (yr := yr) (by rw [hyl.1, List.length_map])]
      push_cast
      rfl
  · -- bra
    have hu : (if u then 1 else 0) < 2 := by split <;> omega
    refine ⟨wl ++ wr, { st with avail := st.avail.erase q, bitmap := dictSet st.bitmap q st.bitmap.length, postmap := dictSet st.postmap q (if u then 1 else 0) },
      ?_, ?_, rfl, ?_, ?_⟩
    · simp only [readStep, a1]
    · rw [dictSet_new _ _ _ a4, dictSet_new _ _ _ a5]
      refine ⟨hsubA, a2, ?_, ?_, ?_, ?_, ?_, ?_⟩
      · simp [h.bits, List.range_succ]
      · rw [List.map_append, List.nodup_append]
        exact ⟨h.nodup, by simp, fun a ha b hb e => a4 (by rw [List.map_cons, List.map_nil, List.mem_singleton] at hb; have e2 : a = q := e.trans hb; exact e2 ▸ ha)⟩
      · intro p hp
        simp only [List.map_append, List.mem_append, List.map_cons, List.map_nil, List.mem_singleton] at hp
        rcases hp with hp | rfl
        · exact h.lt p hp
        · exact a6
      · intro p
        simp only [List.map_append, List.map_cons, List.map_nil, List.mem_append, List.mem_singleton, h.keys, List.mem_cons, Prod.mk.injEq, reduceCtorEq, and_false, and_true, false_or]
        tauto
      · rw [List.map_append, List.nodup_append]
        exact ⟨h.postNodup, by simp, fun a ha b hb e => a5 (by rw [List.map_cons, List.map_nil, List.mem_singleton] at hb; have e2 : a = q := e.trans hb; exact e2 ▸ ha)⟩
      · intro p hp
        simp only [List.map_append, List.map_cons, List.map_nil, List.mem_append, List.mem_singleton] at hp
        rcases hp with hp | rfl
        · have := h.disj p hp
          simp only [List.map_append, List.map_cons, List.mem_append, List.mem_cons, not_or] at this
          rw [List.map_append, List.mem_append, not_or]
          exact ⟨this.1, this.2.2⟩
        · exact a3
    · show L ++ [] ++ R = _
      simp [hL, hR]
    · intro y hy
      obtain ⟨yl, yr, rfl, hyl, hyr⟩ := hpart y hy
      simp only [List.map_append, hL, hR]
      rw [diagIdx_append (by rw [hyl.1, hlen]), act_bra L R v u (by rw [diagIdx_length (by rw [hyl.1, hlen])]),
        hv' yl yr _ hyl hyr hu, joint_cons ψ _ _ q _ _ (by rw [hyl.1, List.length_map]), dictSet_new _ _ _ a5]

/-- The tail of a circuital diagram. -/
theorem tail_run {n : Nat} (ls : List (Layer QOb QBox)) {ws : List (Nat × QOb)} {st : Info} {c : List QOb} (h : TailInv n ws st) (hc : Chain (ws.map Prod.snd) ls c)
    (hb : ∀ l ∈ ls, TailBox l.box) {ψ v : List Nat → ℂ}
    (hv : ∀ y, Bits ws.length y → v (diagIdx (ws.map Prod.snd) y) = (joint n ψ (ws.map Prod.fst) st.postmap y : ℝ)) :
    ∃ ws' st', readLoop st ls = .ok st' ∧ TailInv n ws' st' ∧ st'.gates = st.gates ∧ c = ws'.map Prod.snd ∧
      ∀ y, Bits ws'.length y → cqI.run ls v (diagIdx (ws'.map Prod.snd) y) = (joint n ψ (ws'.map Prod.fst) st'.postmap y : ℝ) := by
  induction ls generalizing ws st v with
  | nil =>
    obtain rfl : ws.map Prod.snd = c := hc
    exact ⟨ws, st, rfl, h, rfl, rfl, hv⟩
  | cons l ls ih =>
    obtain ⟨h1, h2⟩ := hc
    obtain ⟨ws1, st1, e1, e2, e3, e4, e5⟩ := tail_layer h h1 (hb l (by simp)) hv
    rw [e4] at h2
    obtain ⟨ws2, st2, f1, f2, f3, f4, f5⟩ := ih e2 h2 (fun l hl => hb l (List.mem_cons_of_mem _ hl)) e5
    refine ⟨ws2, st2, ?_, f2, f3.trans e3, f4, f5⟩
    rw [readLoop, e1]
    exact f1

end
end QBox
end Lambeq
