import Verif.Quantum.ExportCounts
import Mathlib.Data.List.Sort

/-!
# Export of circuits (C51): the theorem
-/

namespace Lambeq
open Diagram
set_option linter.unusedSectionVars false
set_option linter.unusedSimpArgs false

namespace QBox
noncomputable section

/-- A diagram that starts with `n` qubits in the state 0, goes on with gates that `t|ket⟩` knows and ends with measurements, post-selections and discards. -/
structure Exportable (d : Diagram QOb QBox) (n : Nat) (gs tl : List (Layer QOb QBox)) : Prop where
  layers : d.layers = ketLayers 0 n ++ (gs ++ tl)
  dom : d.dom = []
  wt : d.WT
  gates : ∀ l ∈ gs, ExportGate l.box
  tail : ∀ l ∈ tl, TailBox l.box

theorem isMixed_nest (g : QBox) (ds : List Int) : (nest g ds).isMixed = g.isMixed := by
  induction ds with
  | nil => rfl
  | cons d ds ih => exact ih

theorem GateOf.notMixed {g : QBox} {ds : List Int} {t : String} {ps : List ℝ} {dg : Bool} (hg : GateOf g ds t ps dg) : g.isMixed = false := by
  cases hg <;> rfl

theorem ExportGate.pure {b : QBox} (h : ExportGate b) : (b.Good ∧ b.isMixed = false ∧ ∀ o ∈ b.dom ++ b.cod, o = QOb.qubit) ∨ b = swap .qubit .qubit := by
  rcases h with rfl | ⟨c, rfl⟩ | ⟨c, rfl⟩ | ⟨g, ds, t, ps, dg, rfl, hg⟩
  · exact .inr rfl
  · exact .inl ⟨trivial, rfl, by simp [QBox.dom, cod, sig]⟩
  · exact .inl ⟨trivial, rfl, by simp [QBox.dom, cod, sig]⟩
  · obtain ⟨hone, hds, -⟩ := hg.spec
    refine .inl ⟨nest_good hone ds hds, by rw [isMixed_nest, hg.notMixed], ?_⟩
    obtain ⟨h1, h2⟩ := nest_type hone ds
    rw [h1, h2]
    intro o ho
    rcases List.mem_append.1 ho with ho | ho <;> exact (List.mem_replicate.1 ho).2

theorem ket_pure (b : Bool) : (ket b).Good ∧ (ket b).isMixed = false ∧ ∀ o ∈ (ket b).dom ++ (ket b).cod, o = QOb.qubit :=
  ⟨trivial, rfl, by simp [QBox.dom, cod, sig]⟩

theorem mem_ketLayers {k n : Nat} : ∀ l ∈ ketLayers k n, l.box = ket false ∧ l.right = [] := by
  induction n generalizing k with
  | zero => intro l hl; cases hl
  | succ n ih =>
    intro l hl
    rcases List.mem_cons.1 hl with rfl | hl
    · exact ⟨rfl, rfl⟩
    · exact ih l hl

theorem ketLayers_length (k n : Nat) : (ketLayers k n).length = n := by
  induction n generalizing k with
  | zero => rfl
  | succ n ih => simp [ketLayers, ih]

theorem not_ket_gate {b : QBox} (h : ExportGate b) : b.isKet = false := by
  have := h.isGate
  cases b <;> simp_all [QBox.isGate, isKet]

theorem not_end_gate {b : QBox} (h : ExportGate b) : b.isEnd = false := by
  have := h.isGate
  cases b <;> simp_all [QBox.isGate, isEnd]

theorem foldl_min_ge (l : List Nat) (a m : Nat) (ha : m ≤ a) (h : ∀ x ∈ l, m ≤ x) : m ≤ l.foldl min a := by
  induction l generalizing a with
  | nil => exact ha
  | cons b l ih =>
    rw [List.foldl_cons]
    exact ih _ (by have := h b (by simp); omega) (fun x hx => h x (List.mem_cons_of_mem _ hx))

theorem Exportable.numKets {d : Diagram QOb QBox} {n : Nat} {gs tl : List (Layer QOb QBox)} (h : Exportable d n gs tl) : numKets d.layers = n := by
  unfold QBox.numKets
  rw [h.layers, List.countP_append, List.countP_append]
  have h1 : (ketLayers 0 n).countP (fun l => l.box.isKet) = n := by
    rw [List.countP_eq_length.2 (fun l hl => by rw [(mem_ketLayers l hl).1]; rfl), ketLayers_length]
  have h2 : gs.countP (fun l => l.box.isKet) = 0 := List.countP_eq_zero.2 (fun l hl => by simp [not_ket_gate (h.gates l hl)])
  have h3 : tl.countP (fun l => l.box.isKet) = 0 := List.countP_eq_zero.2 (fun l hl => by
    rcases h.tail l hl with e | e | ⟨v, e⟩ <;> simp [e, isKet])
  omega

theorem le_foldl_max (l : List Nat) : ∀ a, a ≤ l.foldl max a ∧ ∀ x ∈ l, x ≤ l.foldl max a := by
  induction l with
  | nil => intro a; simp
  | cons b l ih =>
    intro a
    obtain ⟨h1, h2⟩ := ih (max a b)
    rw [List.foldl_cons]
    exact ⟨by omega, fun x hx => by
      rcases List.mem_cons.1 hx with rfl | hx
      · omega
      · exact h2 x hx⟩

theorem foldl_min_le (l : List Nat) : ∀ a, l.foldl min a ≤ a ∧ ∀ x ∈ l, l.foldl min a ≤ x := by
  induction l with
  | nil => intro a; simp
  | cons b l ih =>
    intro a
    obtain ⟨h1, h2⟩ := ih (min a b)
    rw [List.foldl_cons]
    exact ⟨by omega, fun x hx => by
      rcases List.mem_cons.1 hx with rfl | hx
      · omega
      · exact h2 x hx⟩

theorem circ_foldl_max_mem (l : List Nat) : ∀ a, l.foldl max a = a ∨ l.foldl max a ∈ l := by
  induction l with
  | nil => intro a; simp
  | cons b l ih =>
    intro a
    rw [List.foldl_cons]
    rcases ih (max a b) with h | h
    · rw [h]; rcases max_choice a b with e | e <;> rw [e] <;> simp
    · exact .inr (List.mem_cons_of_mem _ h)

theorem foldl_min_mem (l : List Nat) : ∀ a, l.foldl min a = a ∨ l.foldl min a ∈ l := by
  induction l with
  | nil => intro a; simp
  | cons b l ih =>
    intro a
    rw [List.foldl_cons]
    rcases ih (min a b) with h | h
    · rw [h]; rcases min_choice a b with e | e <;> rw [e] <;> simp
    · exact .inr (List.mem_cons_of_mem _ h)

theorem mem_endIdx {ls : List (Layer QOb QBox)} {i : Nat} : i ∈ endIdx ls ↔ ∃ l, ls[i]? = some l ∧ l.box.isEnd = true := by
  rw [endIdx, List.mem_filter, List.mem_range]
  constructor
  · rintro ⟨h1, h2⟩
    rw [List.getElem?_eq_getElem h1] at h2
    exact ⟨_, List.getElem?_eq_getElem h1, h2⟩
  · rintro ⟨l, h1, h2⟩
    refine ⟨(List.getElem?_eq_some_iff.1 h1).1, ?_⟩
    rw [h1]; exact h2

/-- **C51 (which circuits).** `is_circuital` accepts exactly the circuits without inputs that start by preparing all their qubits, each on the right of the
earlier ones, and where nothing but measurements, discards and post-selections happens between the first and the last discard or post-selection. -/
theorem C51_circuital (d : Diagram QOb QBox) : isCircuital d = true ↔ d.dom = [] ∧ ∃ ks rest, d.layers = ks ++ rest ∧
    (∀ l ∈ ks, l.box.isKet = true ∧ l.right = []) ∧ (∀ l ∈ rest, l.box.isKet = false) ∧
    ∀ (i k j : Nat) (li lk lj : Layer QOb QBox), i < k → k < j → rest[i]? = some li → rest[k]? = some lk → rest[j]? = some lj → li.box.isEnd = true → lj.box.isEnd = true →
      lk.box.isEnd = true ∨ lk.box.isMeasure = true := by
  have tailIff : ∀ rest : List (Layer QOb QBox), (match endIdx rest with
      | [] => true
      | i :: is =>
        let mmax := is.foldl max i
        let mmin := is.foldl min i
        (List.range rest.length).all (fun (k : Nat) =>
          match rest[k]? with
          | none => true
          | some l => if !(l.box.isEnd || l.box.isMeasure) then !(decide (k > mmin) && decide (k < mmax)) else true)) = true ↔
      ∀ (i k j : Nat) (li lk lj : Layer QOb QBox), i < k → k < j → rest[i]? = some li → rest[k]? = some lk → rest[j]? = some lj → li.box.isEnd = true → lj.box.isEnd = true →
      lk.box.isEnd = true ∨ lk.box.isMeasure = true := by
    intro rest
    cases he : endIdx rest with
    | nil =>
      simp only [true_iff]
      intro i k j li lk lj _ _ h1 _ _ h4 _
      have := mem_endIdx.2 ⟨li, h1, h4⟩
      rw [he] at this; cases this
    | cons a is =>
      simp only [List.all_eq_true, List.mem_range]
      obtain ⟨mx1, mx2⟩ := le_foldl_max is a
      obtain ⟨mn1, mn2⟩ := foldl_min_le is a
      constructor
      · intro h i k j li lk lj hik hkj h1 h2 h3 h4 h5
        have hi := mem_endIdx.2 ⟨li, h1, h4⟩
        have hj := mem_endIdx.2 ⟨lj, h3, h5⟩
        rw [he] at hi hj
        have hmin : is.foldl min a ≤ i := by
          rcases List.mem_cons.1 hi with rfl | hi
          exacts [mn1, mn2 _ hi]
        have hmax : j ≤ is.foldl max a := by
          rcases List.mem_cons.1 hj with rfl | hj
          exacts [mx1, mx2 _ hj]
        have := h k (List.getElem?_eq_some_iff.1 h2).1
        rw [h2] at this
        by_contra hc
        rw [not_or, Bool.not_eq_true, Bool.not_eq_true] at hc
        simp only [hc.1, hc.2, Bool.or_self, Bool.not_false, if_true, Bool.not_eq_true', Bool.and_eq_false_iff, decide_eq_false_iff_not] at this
        omega
      · intro h k hk
        rw [List.getElem?_eq_getElem hk]
        simp only
        split
        · rename_i hb
          rw [Bool.not_eq_true', Bool.and_eq_false_iff, decide_eq_false_iff_not, decide_eq_false_iff_not]
          by_contra hc
          rw [not_or, not_not, not_not] at hc
          have m1 : is.foldl min a ∈ endIdx rest := by
            rw [he]
            rcases foldl_min_mem is a with e | e
            · rw [e]; simp
            · exact List.mem_cons_of_mem _ e
          have m2 : is.foldl max a ∈ endIdx rest := by
            rw [he]
            rcases circ_foldl_max_mem is a with e | e
            · rw [e]; simp
            · exact List.mem_cons_of_mem _ e
          obtain ⟨li, h1, h4⟩ := mem_endIdx.1 m1
          obtain ⟨lj, h3, h5⟩ := mem_endIdx.1 m2
          rcases h _ k _ li _ lj hc.1 hc.2 h1 (List.getElem?_eq_getElem hk) h3 h4 h5 with e | e <;> simp [e] at hb
        · rfl
  unfold isCircuital
  constructor
  · intro h
    split at h
    · cases h
    rename_i hdom
    simp only at h
    split at h
    · cases h
    rename_i hket
    split at h
    · cases h
    rename_i hright
    have hk : ∀ l ∈ d.layers.take (QBox.numKets d.layers), l.box.isKet = true := by simpa using hket
    have hr : ∀ l ∈ d.layers.take (QBox.numKets d.layers), l.right = [] := by simpa using hright
    refine ⟨by simpa using hdom, _, _, (List.take_append_drop (QBox.numKets d.layers) d.layers).symm, fun l hl => ⟨hk l hl, hr l hl⟩, ?_, (tailIff _).1 h⟩
    have hcount : QBox.numKets d.layers = (d.layers.take (QBox.numKets d.layers)).countP (fun l => l.box.isKet) + (d.layers.drop (QBox.numKets d.layers)).countP (fun l => l.box.isKet) := by
      conv_lhs => rw [QBox.numKets]
      rw [← List.countP_append, List.take_append_drop]
    have hle : QBox.numKets d.layers ≤ d.layers.length := List.countP_le_length
    rw [List.countP_eq_length.2 hk, List.length_take, Nat.min_eq_left hle] at hcount
    have h0 : (d.layers.drop (QBox.numKets d.layers)).countP (fun l => l.box.isKet) = 0 := by omega
    intro l hl
    simpa using List.countP_eq_zero.1 h0 l hl
  · rintro ⟨hdom, ks, rest, hl, hks, hrest, ht⟩
    have hn : QBox.numKets d.layers = ks.length := by
      rw [QBox.numKets, hl, List.countP_append, List.countP_eq_length.2 (fun l h => (hks l h).1), List.countP_eq_zero.2 (fun l h => by simp [hrest l h])]
      rfl
    rw [if_neg (by simp [hdom]), hn]
    have h1 : d.layers.take ks.length = ks := by rw [hl, List.take_left]
    have h2 : d.layers.drop ks.length = rest := by rw [hl, List.drop_left]
    simp only [h1, h2]
    rw [if_neg (by simpa using fun l h => (hks l h).1), if_neg (by simpa using fun l h => (hks l h).2)]
    exact (tailIff rest).2 ht

theorem Exportable.circuital {d : Diagram QOb QBox} {n : Nat} {gs tl : List (Layer QOb QBox)} (h : Exportable d n gs tl) : isCircuital d = true := by
  unfold isCircuital
  rw [if_neg (by simp [h.dom]), h.numKets]
  have ht : d.layers.take n = ketLayers 0 n := by rw [h.layers, List.take_left' (ketLayers_length 0 n)]
  have hd : d.layers.drop n = gs ++ tl := by rw [h.layers, List.drop_left' (ketLayers_length 0 n)]
  simp only [ht, hd]
  rw [if_neg, if_neg]
  · have hidx : ∀ i ∈ endIdx (gs ++ tl), gs.length ≤ i := by
      intro i hi
      by_contra hlt
      have := (List.mem_filter.1 hi).2
      rw [List.getElem?_append_left (by omega), List.getElem?_eq_getElem (by omega)] at this
      simp [not_end_gate (h.gates _ (List.getElem_mem (by omega : i < gs.length)))] at this
    split
    · rfl
    · rename_i i is e
      rw [e] at hidx
      rw [List.all_eq_true]
      intro k _
      split
      · rfl
      · rename_i l hl
        split
        · rename_i hb
          have hk : k < gs.length := by
            by_contra hk
            rw [List.getElem?_append_right (by omega)] at hl
            rcases h.tail l (List.mem_of_getElem? hl) with e | e | ⟨v, e⟩ <;> simp [e, isEnd, isMeasure] at hb
          have hmin := foldl_min_ge is i gs.length (hidx i (by simp)) (fun x hx => hidx x (List.mem_cons_of_mem _ hx))
          simp only [Bool.not_eq_true', Bool.and_eq_false_iff, decide_eq_false_iff_not]
          left; omega
        · rfl
  · simp only [List.any_eq_true, not_exists, not_and, decide_eq_true_eq, not_not]
    exact fun l hl => (mem_ketLayers l hl).2
  · simp only [Bool.not_eq_true', Bool.not_eq_false, List.all_eq_true]
    exact fun l hl => by rw [(mem_ketLayers l hl).1]; rfl

theorem Exportable.cq {d : Diagram QOb QBox} {n : Nat} {gs tl : List (Layer QOb QBox)} (h : Exportable d n gs tl) : CQOK d := by
  refine ⟨h.wt, fun l hl => ?_⟩
  rw [h.layers, List.mem_append, List.mem_append] at hl
  rcases hl with hl | hl | hl
  · rw [Balanced, (mem_ketLayers l hl).1]
    exact ⟨.inl (ket_pure _), by simp⟩
  · have hg := (h.gates l hl).pure
    refine ⟨hg.imp id (fun g => .inr (.inr (.inr (.inr (.inl g))))), fun e => ?_⟩
    rcases hg with g | g
    · rw [e] at g; exact g.1.elim
    · rw [e] at g; cases g
  · rcases h.tail l hl with e | e | ⟨v, e⟩ <;> rw [Balanced, e]
    · exact ⟨.inr (.inl rfl), by simp⟩
    · exact ⟨.inr (.inr (.inr (.inl rfl))), by simp⟩
    · exact ⟨.inl ⟨trivial, rfl, by simp [QBox.dom, cod, sig]⟩, by simp⟩

theorem chain_unique {a b c : List QOb} (ls : List (Layer QOb QBox)) (h : Chain a ls b) (h' : Chain a ls c) : b = c := by
  induction ls generalizing a with
  | nil => exact Eq.trans (Eq.symm h) h'
  | cons l ls ih => exact ih h.2 h'.2

theorem joint_smul (n : Nat) (κ : ℂ) (ψ : List Nat → ℂ) (w : List Nat) (post : List (Nat × Nat)) (y : List Nat) :
    joint n (fun z => κ * ψ z) w post y = ‖κ‖ ^ 2 * joint n ψ w post y := by
  unfold joint
  rw [Finset.mul_sum]
  refine Finset.sum_congr rfl (fun z _ => ?_)
  split
  · rw [Complex.normSq_mul, Complex.normSq_eq_norm_sq κ]
  · simp

theorem joint_congr {n : Nat} {ψ φ : List Nat → ℂ} (h : ∀ y, Bits n y → ψ y = φ y) (w : List Nat) (post : List (Nat × Nat)) (y : List Nat) :
    joint n ψ w post y = joint n φ w post y := by
  unfold joint
  exact Finset.sum_congr rfl (fun z hz => by rw [h z (mem_allBits.1 hz)])

/-- Everything about an exportable diagram: the exported circuit, the wires at the end, the diagonal of its value. -/
theorem export_all {d : Diagram QOb QBox} {n : Nat} {gs tl : List (Layer QOb QBox)} (h : Exportable d n gs tl) :
    ∃ (ws : List (Nat × QOb)) (st0 st : Info) (tk : TkCircuit), toTkCircuital d = .ok tk ∧ tk.nQubits = n ∧ tk.nBits = st.bitmap.length ∧ tk.measures = st.bitmap ∧
      tk.postSelection = st.postmap ∧ st0.avail = List.range n ∧ st0.bitmap = [] ∧ st0.postmap = [] ∧ readLoop st0 tl = .ok st ∧ TailInv n ws st ∧ d.cod = ws.map Prod.snd ∧
      ∀ y, Bits ws.length y → cqI.mat d [] (diagIdx d.cod y) = (tk.scalar * joint n tk.state (ws.map Prod.fst) tk.postSelection y : ℝ) := by
  have hw : Chain d.dom d.layers d.cod := h.wt
  rw [h.dom, h.layers] at hw
  obtain ⟨a, c1, c2⟩ := chain_append_iff.1 hw
  obtain ⟨b, c2, c3⟩ := chain_append_iff.1 c2
  have ha : a = qubits n := chain_unique _ c1 (by have := chain_kets 0 n; rwa [Nat.zero_add] at this)
  obtain ⟨hb, G, g1, cmds, κ, g2, g3⟩ := export_gates gs c2 ha h.gates
  let st0 : Info := ⟨List.range n, G, [], [], []⟩
  have hq : qubits n = ((List.range n).map (fun (i : Nat) => (i, QOb.qubit))).map Prod.snd := by simp [qubits, Function.comp_def, List.map_const']
  have hq' : List.range n = ((List.range n).map (fun (i : Nat) => (i, QOb.qubit))).map Prod.fst := by simp [Function.comp_def]
  -- the state before the tail
  have hinit : TailInv n ((List.range n).map (fun (i : Nat) => (i, QOb.qubit))) st0 := by
    refine ⟨by rw [← hq'], ?_, rfl, List.nodup_nil, by simp [st0], ?_, List.nodup_nil, by simp [st0]⟩
    · show List.range n = _
      rw [List.filter_eq_self.2 (by simp), ← hq']
    · intro q; simp [st0]
  have hpure : ∀ y, Bits n y → tnCat.interp.run (ketLayers 0 n ++ gs) (fun s => if s = [] then 1 else 0) y = κ * applyAll cmds (fun y => if y = List.replicate n 0 then 1 else 0) y := by
    intro y hy
    rw [Interp.run_append, g3 _ y hy]
    refine congrArg (κ * ·) (applyAll_congr cmds (fun z hz => ?_) hy)
    have := run_kets 0 n (fun s => if s = [] then (1 : ℂ) else 0) [] z Bits.nil hz
    rw [List.nil_append] at this
    rw [this]; simp
  have hmid : ∀ s ∈ cqI.idx b, cqI.run (ketLayers 0 n ++ gs) (fun s => if s = [] then 1 else 0) s =
      tnCat.interp.run (ketLayers 0 n ++ gs) (fun s => if s = [] then 1 else 0) (qOf b s) *
      star (tnCat.interp.run (ketLayers 0 n ++ gs) (fun s => if s = [] then 1 else 0) (rOf b s)) := by
    refine (run_double (a := []) (ketLayers 0 n ++ gs) (by simp) ?_ ?_ ?_).2
    · exact c1.append c2
    · intro l hl
      rcases List.mem_append.1 hl with hl | hl
      · rw [(mem_ketLayers l hl).1]
        exact dbl_good (ket_pure _).1 (ket_pure _).2.1 (ket_pure _).2.2
      · rcases (h.gates l hl).pure with g | g
        · exact dbl_good g.1 g.2.1 g.2.2
        · rw [g]; exact dbl_swap
    · intro s hs
      obtain rfl : s = [] := by simpa [Interp.idx] using hs
      simp [qOf, rOf]
  obtain ⟨ws, st, e1, e2, e3, e4, e5⟩ := tail_run (n := n) tl hinit (c := d.cod) (by rw [← hq, ← hb]; exact c3) h.tail
    (ψ := fun z => κ * applyAll cmds (fun y => if y = List.replicate n 0 then 1 else 0) z)
    (v := cqI.run (ketLayers 0 n ++ gs) (fun s => if s = [] then 1 else 0)) (by
      intro y hy
      rw [List.length_map, List.length_range] at hy
      rw [← hq, ← hq']
      obtain ⟨d1, d2, d3⟩ := diagIdx_qubits hy
      rw [hmid _ (by rw [hb]; exact d1), hb, d2, d3, hpure y hy]
      unfold joint
      rw [Finset.sum_eq_single y]
      · rw [if_pos]
        · rw [Complex.star_def, Complex.mul_conj]
        · refine ⟨eq_of_getD (n := n) (by simp) hy.1 (fun k hk => ?_), by simp [st0]⟩
          simp [List.getD_eq_getElem?_getD, hk]
      · intro z hz hne
        rw [if_neg]
        rintro ⟨hz', -⟩
        refine hne ?_
        have hz1 := (mem_allBits.1 hz).1
        rw [← hz']
        refine eq_of_getD (n := n) hz1 (by simp) (fun k hk => ?_)
        simp [List.getD_eq_getElem?_getD, hk]
      · intro hn; exact absurd (mem_allBits.2 hy) hn)
  let tk : TkCircuit := ⟨n, st.bitmap.length, cmds, st.bitmap, st.postmap, ‖κ‖ ^ 2⟩
  have hread : readoff d = .ok (n, st) := by
    unfold readoff
    rw [h.circuital, h.numKets, h.layers, readLoop_kets, g1]
    simp only [Bool.not_true, Bool.false_eq_true, if_false, List.nil_append]
    rw [e1]
  refine ⟨ws, st0, st, tk, ?_, rfl, rfl, rfl, rfl, rfl, rfl, rfl, e1, e2, e4, ?_⟩
  · unfold toTkCircuital
    rw [hread]
    simp only
    rw [e3, g2 _ rfl]
    simp [tk]
  · intro y hy
    have := e5 y hy
    rw [← e4] at this
    have hrun : cqI.mat d [] (diagIdx d.cod y) = cqI.run tl (cqI.run (ketLayers 0 n ++ gs) (fun s => if s = [] then 1 else 0)) (diagIdx d.cod y) := by
      rw [← Interp.run_append, List.append_assoc, ← h.layers]
      rfl
    rw [hrun, this, joint_smul]
    rfl

end
end QBox
end Lambeq
