import Verif.Quantum.ExportMain

/-!
# Export of circuits and evaluation on a backend: the theorems (C51)
-/

namespace Lambeq
open Diagram
set_option linter.unusedSectionVars false
set_option linter.unusedSimpArgs false

namespace QBox
noncomputable section

/-- The qubits that are measured and not post-selected, from left to right: the wires at the end of the diagram. -/
def openQubits (tk : TkCircuit) : List Nat :=
  (List.range tk.nQubits).filter (fun (q : Nat) => (tk.measures.map Prod.fst).contains q && !(tk.postSelection.map Prod.fst).contains q)

/-- A qubit is measured into one bit. -/
theorem measured_unique {ms : List (Nat × Nat)} (h : (ms.map Prod.fst).Nodup) {q i j : Nat} (hi : (q, i) ∈ ms) (hj : (q, j) ∈ ms) : i = j := by
  have := List.inj_on_of_nodup_map h hi hj rfl
  exact (Prod.mk.injEq _ _ _ _ ▸ this).2

theorem measured_unique' {ms : List (Nat × Nat)} (h : (ms.map Prod.snd).Nodup) {q r i : Nat} (hi : (q, i) ∈ ms) (hj : (r, i) ∈ ms) : q = r := by
  have := List.inj_on_of_nodup_map h hi hj rfl
  exact (Prod.mk.injEq _ _ _ _ ▸ this).1

/-- **C51 (export).** Let `d` start with qubits in the state 0, go on with gates of the table `GateOf`, swaps of qubits and scalars, and end with
measurements, post-selections and discards in any order, with bits only at the end. The export succeeds; every bit is written by one measurement; and
every entry `y` of `d.eval(mixed=True)` is the scalar of the exported circuit times the probability of every bitstring that has the post-selected
values in the bits of the post-selected qubits and the values `y` in the bits of the other measured qubits, in the order of the qubits. -/
theorem C51_export {d : Diagram QOb QBox} {n : Nat} {gs tl : List (Layer QOb QBox)} (h : Exportable d n gs tl) {k : Nat} (hk : d.cod = List.replicate k QOb.bit) :
    ∃ tk F, toTkCircuital d = .ok tk ∧ eval d true = .ok F ∧ tk.nQubits = n ∧
      tk.measures.map Prod.snd = List.range tk.nBits ∧ (tk.measures.map Prod.fst).Nodup ∧ (∀ q ∈ tk.measures.map Prod.fst, q < n) ∧
      (tk.postSelection.map Prod.fst).Nodup ∧ (∀ q ∈ tk.postSelection.map Prod.fst, q ∈ tk.measures.map Prod.fst) ∧
      (openQubits tk).length = k ∧
      ∀ β y, Bits tk.nBits β → Bits k y →
        (∀ p ∈ tk.postSelection, ∀ i, (p.1, i) ∈ tk.measures → β.getD i 0 = p.2) →
        (∀ j q i, (openQubits tk)[j]? = some q → (q, i) ∈ tk.measures → β.getD i 0 = y.getD j 0) →
        F y = (tk.scalar * tk.prob β : ℝ) := by
  obtain ⟨ws, st0, st, tk, t1, t2, t3, t4, t5, s1, s2, s3, s4, inv, hcod, hmat⟩ := export_all h
  obtain ⟨F, hF⟩ := C74_total h.cq
  have hbit : ∀ w ∈ ws, w.2 = QOb.bit := by
    intro w hw
    have : w.2 ∈ d.cod := by rw [hcod]; exact List.mem_map.2 ⟨w, hw, rfl⟩
    rw [hk] at this
    exact (List.mem_replicate.1 this).2
  have hlen : ws.length = k := by
    have := congrArg List.length (hcod.symm.trans hk)
    simpa using this
  have hopen : openQubits tk = ws.map Prod.fst := by
    refine List.Pairwise.eq_of_mem_iff (r := (· < ·)) ?_ ?_ (fun q => ?_)
    · exact List.pairwise_lt_range.filter _
    · exact List.pairwise_lt_range.sublist inv.sub
    · rw [openQubits, List.mem_filter, t4, t5, t2]
      simp only [List.mem_range, Bool.and_eq_true, List.contains_iff_mem, Bool.not_eq_true', ← Bool.not_eq_true, inv.keys]
      constructor
      · rintro ⟨_, h1 | h1, h2⟩
        · exact List.mem_map.2 ⟨_, h1, rfl⟩
        · exact absurd h1 h2
      · intro hq
        refine ⟨List.mem_range.1 (inv.sub.subset hq), ?_, fun hp => inv.disj q hp hq⟩
        obtain ⟨w, hw, rfl⟩ := List.mem_map.1 hq
        left
        have := hbit w hw
        rw [← this]; exact hw
  refine ⟨tk, F, t1, hF, t2, by rw [t4, t3]; exact inv.bits, by rw [t4]; exact inv.nodup, by rw [t4]; exact inv.lt, by rw [t5]; exact inv.postNodup, ?_, ?_, ?_⟩
  · intro q hq
    rw [t5] at hq
    rw [t4]
    exact (inv.keys q).2 (.inr hq)
  · rw [hopen, List.length_map, hlen]
  · intro β y hβ hy hpost hwire
    have hyw : Bits ws.length y := by rw [hlen]; exact hy
    have hm := hmat y hyw
    rw [hk] at hm
    obtain ⟨b1, b2, b3, b4⟩ := diagIdx_bits k y hy.1
    rw [b1] at hm
    have hidx : y ∈ cqI.idx d.cod := by
      rw [hk, cqI.mem_idx]
      clear hm hmat hwire b1 b2 b3 b4 hlen hk hyw
      induction k generalizing y with
      | zero => obtain rfl := hy.eq_nil; exact .nil
      | succ k ih =>
        obtain ⟨a, y, rfl, ha, hy'⟩ := hy.uncons
        exact .cons ha (ih y hy')
    have hev := eval_cq h.cq hF [] (by rw [h.dom]; simp [Interp.idx]) y hidx
    rw [hm] at hev
    rw [h.dom, hk] at hev
    have hfl : flat [] [] ++ flat (List.replicate k QOb.bit) y = y := by simp [flat, b2, b3, b4, cOf, qOf, rOf]
    rw [hfl] at hev
    rw [hev]
    congr 2
    unfold joint TkCircuit.prob
    rw [t2]
    refine Finset.sum_congr rfl (fun z hz => if_congr ?_ rfl rfl)
    rw [hopen] at hwire
    constructor
    · rintro ⟨h1, h2⟩ m hmem
      have hkey : m.1 ∈ st.bitmap.map Prod.fst := List.mem_map.2 ⟨m, by rw [← t4]; exact hmem, rfl⟩
      rcases (inv.keys m.1).1 hkey with hw | hp
      · obtain ⟨j, hj, e⟩ := List.mem_iff_getElem.1 hw
        have hj' : (ws.map Prod.fst)[j]? = some m.1 := by simp [hj, e]
        rw [hwire j m.1 m.2 hj' hmem, ← h1]
        simp [List.getD_eq_getElem?_getD, hj, e]
      · obtain ⟨p, hp1, hp2⟩ := List.mem_map.1 hp
        have := h2 p (by rw [t5]; exact hp1)
        rw [← hp2, this, hpost p (by rw [t5]; exact hp1) m.2 (by rw [hp2]; exact hmem)]
    · intro hall
      constructor
      · refine eq_of_getD (n := k) (by simp [hlen]) hy.1 (fun j hj => ?_)
        have hj2 : j < ws.length := by omega
        have hw : (ws[j].1, QOb.bit) ∈ ws := by
          have h0 := hbit ws[j] (List.getElem_mem hj2)
          rw [← h0]; exact List.getElem_mem hj2
        obtain ⟨m, hm1, hm2⟩ := List.mem_map.1 ((inv.keys ws[j].1).2 (.inl hw))
        rw [← t4] at hm1
        have h3 := hwire j m.1 m.2 (by simp [hj2, hm2]) hm1
        have h4 := hall m hm1
        rw [← h3, ← h4, hm2]
        simp [List.getD_eq_getElem?_getD, hj2]
      · intro p hp
        have hkey : p.1 ∈ st.bitmap.map Prod.fst := (inv.keys p.1).2 (.inr (List.mem_map.2 ⟨p, by rw [← t5]; exact hp, rfl⟩))
        obtain ⟨m, hm1, hm2⟩ := List.mem_map.1 hkey
        rw [← t4] at hm1
        rw [← hm2, hall m hm1, hpost p hp m.2 (by rw [← hm2]; exact hm1)]

/-! ## Evaluation on a backend -/

/-- The post-selected values are bits. -/
theorem readLoop_post {ls : List (Layer QOb QBox)} {st st' : Info} (h : readLoop st ls = .ok st') (hp : ∀ p ∈ st.postmap, p.2 < 2) : ∀ p ∈ st'.postmap, p.2 < 2 := by
  induction ls generalizing st with
  | nil => cases h; exact hp
  | cons l ls ih =>
    have hset : ∀ (d : List (Nat × Nat)) (q v : Nat), v < 2 → (∀ p ∈ d, p.2 < 2) → ∀ p ∈ dictSet d q v, p.2 < 2 := by
      intro d q v hv hd
      induction d with
      | nil => intro p hp; simp [dictSet] at hp; rw [hp]; exact hv
      | cons a d ih =>
        intro p hp
        simp only [dictSet] at hp
        split at hp
        · rcases List.mem_cons.1 hp with rfl | hp
          · exact hv
          · exact hd p (List.mem_cons_of_mem _ hp)
        · rcases List.mem_cons.1 hp with rfl | hp
          · exact hd _ (by simp)
          · exact ih (fun p hp => hd p (List.mem_cons_of_mem _ hp)) p hp
    rw [readLoop] at h
    split at h
    · cases h
    · rename_i st1 h1
      refine ih h ?_
      unfold readStep at h1
      split at h1
      all_goals (try (split at h1))
      all_goals first
        | (cases h1; done)
        | (cases h1; exact hp)
        | (cases h1; refine hset _ _ _ ?_ hp; split <;> omega)

/-- **C51 (backend).** For an exportable diagram with bits only at the end whose post-selected qubits are measured into the bits with their own numbers and whose
other qubits are measured from left to right: if the backend returns the exact probabilities, `d.eval(backend=...)` is `d.eval(mixed=True)`. -/
theorem C51_backend_partial {d : Diagram QOb QBox} {n : Nat} {gs tl : List (Layer QOb QBox)} (h : Exportable d n gs tl) {k : Nat} (hk : d.cod = List.replicate k QOb.bit)
    {tk : TkCircuit} (htk : toTkCircuital d = .ok tk) (hpost : ∀ m ∈ tk.measures, m.1 ∈ tk.postSelection.map Prod.fst → m.2 = m.1)
    (hord : ∀ m ∈ tk.measures, ∀ m' ∈ tk.measures, m.1 ∉ tk.postSelection.map Prod.fst → m'.1 ∉ tk.postSelection.map Prod.fst → m.1 < m'.1 → m.2 < m'.2)
    (counts : Counts) (hl : ∀ e ∈ counts, e.1.length = tk.nBits) (hnd : (counts.map Prod.fst).Nodup) (hex : ∀ s, Bits tk.nBits s → counts.get s = tk.prob s) :
    ∃ F result, eval d true = .ok F ∧ backendEval d counts = .ok (k, result) ∧ ∀ y, Bits k y → (result y : ℂ) = F y := by
  obtain ⟨tk', F, e1, hF, e3, e4, e5, e6, e7, e8, e9, e10⟩ := C51_export h hk
  cases htk.symm.trans e1
  have hp2 : ∀ p ∈ tk.postSelection, p.2 < 2 := by
    obtain ⟨ws, st0, st, tk', t1, t2, t3, t4, t5, s1, s2, s3, s4, -⟩ := export_all h
    cases htk.symm.trans t1
    rw [t5]
    exact readLoop_post s4 (by rw [s3]; simp)
  have hsnd : (tk.measures.map Prod.snd).Nodup := by rw [e4]; exact List.nodup_range
  have hlt : ∀ m ∈ tk.measures, m.2 < tk.nBits := fun m hm => by
    have : m.2 ∈ tk.measures.map Prod.snd := List.mem_map.2 ⟨m, hm, rfl⟩
    rw [e4] at this; exact List.mem_range.1 this
  have hkeys : ∀ p ∈ tk.postSelection, (p.1, p.1) ∈ tk.measures := by
    intro p hp
    obtain ⟨m, hm1, hm2⟩ := List.mem_map.1 (e8 p.1 (List.mem_map.2 ⟨p, hp, rfl⟩))
    have := hpost m hm1 (by rw [hm2]; exact List.mem_map.2 ⟨p, hp, rfl⟩)
    have : m = (p.1, p.1) := Prod.ext hm2 (by rw [this, hm2])
    rw [← this]; exact hm1
  have hplt : ∀ p ∈ tk.postSelection, p.1 < tk.nBits := fun p hp => hlt _ (hkeys p hp)
  -- the bit of an open qubit
  let bitOf : Nat → Nat := fun q => ((tk.measures.find? (fun m => m.1 = q)).map Prod.snd).getD 0
  have hbitOf : ∀ m ∈ tk.measures, bitOf m.1 = m.2 := by
    intro m hm
    have : ∃ m', tk.measures.find? (fun m' => m'.1 = m.1) = some m' := by
      rw [← Option.isSome_iff_exists, List.find?_isSome]
      exact ⟨m, hm, by simp⟩
    obtain ⟨m', hm'⟩ := this
    have h1 : m'.1 = m.1 := by simpa using List.find?_some hm'
    have h2 := List.mem_of_find?_eq_some hm'
    show ((tk.measures.find? (fun m' => m'.1 = m.1)).map Prod.snd).getD 0 = m.2
    rw [hm']
    exact measured_unique e5 (q := m.1) (by rw [← h1]; exact h2) hm
  have hopen : ∀ q, q ∈ openQubits tk ↔ (∃ m ∈ tk.measures, m.1 = q) ∧ q ∉ tk.postSelection.map Prod.fst := by
    intro q
    rw [openQubits, List.mem_filter, Bool.and_eq_true, List.contains_iff_mem, Bool.not_eq_true', ← Bool.not_eq_true, List.contains_iff_mem, List.mem_range]
    constructor
    · rintro ⟨_, h1, h2⟩
      exact ⟨by simpa using h1, h2⟩
    · rintro ⟨⟨m, hm, rfl⟩, h2⟩
      have : m.1 ∈ tk.measures.map Prod.fst := List.mem_map.2 ⟨m, hm, rfl⟩
      exact ⟨by rw [e3]; exact e6 _ this, this, h2⟩
  have hproj : (List.range tk.nBits).filter (fun (i : Nat) => !(tk.postSelection.map Prod.fst).contains i) = (openQubits tk).map bitOf := by
    refine List.Pairwise.eq_of_mem_iff (r := (· < ·)) (List.pairwise_lt_range.filter _) ?_ (fun i => ?_)
    · rw [List.pairwise_map]
      refine List.Pairwise.imp_of_mem ?_ (List.pairwise_lt_range.filter _ : (openQubits tk).Pairwise (· < ·))
      intro q r hq hr hqr
      obtain ⟨⟨m, hm, rfl⟩, h1⟩ := (hopen q).1 hq
      obtain ⟨⟨m', hm', rfl⟩, h2⟩ := (hopen r).1 hr
      rw [hbitOf m hm, hbitOf m' hm']
      exact hord m hm m' hm' h1 h2 hqr
    · rw [List.mem_filter, Bool.not_eq_true', ← Bool.not_eq_true, List.contains_iff_mem, List.mem_range, List.mem_map (l := openQubits tk)]
      constructor
      · rintro ⟨hi, hn⟩
        have : i ∈ tk.measures.map Prod.snd := by rw [e4]; exact List.mem_range.2 hi
        obtain ⟨m, hm, rfl⟩ := List.mem_map.1 this
        refine ⟨m.1, (hopen _).2 ⟨⟨m, hm, rfl⟩, fun hp => hn ?_⟩, hbitOf m hm⟩
        rw [hpost m hm hp]; exact hp
      · rintro ⟨q, hq, rfl⟩
        obtain ⟨⟨m, hm, rfl⟩, h1⟩ := (hopen q).1 hq
        rw [hbitOf m hm]
        refine ⟨hlt m hm, fun hp => h1 ?_⟩
        obtain ⟨p, hp1, hp2⟩ := List.mem_map.1 hp
        have h3 := hkeys p hp1
        rw [hp2] at h3
        have : m.1 = m.2 := measured_unique' hsnd (i := m.2) hm h3
        rw [this]; exact hp
  have hkk : tk.nBits - tk.postSelection.length = k := by
    have h1 := project_length (s := List.replicate tk.nBits 0) (post := tk.postSelection) (by simpa using hplt) e7
    rw [project, List.length_map, List.length_replicate, hproj, List.length_map, e9] at h1
    exact h1.symm
  obtain ⟨r, result, r1, r2, r3, -⟩ := C56_counts tk hplt e7 counts hl hnd
  rw [hkk] at r2
  refine ⟨F, result, hF, by rw [backendEval, htk]; simp only [r1, r2], ?_⟩
  intro y hy
  obtain ⟨s, s1, s2, s3⟩ := C56_entries tk.postSelection tk.nBits hplt e7 y (by rw [hkk]; exact hy.1)
  have hproj' : y = (openQubits tk).map (fun q => s.getD (bitOf q) 0) := by
    rw [← s3, project, s1, hproj, List.map_map]; rfl
  have hs : Bits tk.nBits s := by
    refine ⟨s1, fun b hb => ?_⟩
    obtain ⟨i, hi, rfl⟩ := List.mem_iff_getElem.1 hb
    by_cases hm : i ∈ tk.postSelection.map Prod.fst
    · obtain ⟨p, hp, rfl⟩ := List.mem_map.1 hm
      have := s2 p hp
      rw [List.getD_eq_getElem?_getD, List.getElem?_eq_getElem hi] at this
      simp only [Option.getD_some] at this
      rw [this]; exact hp2 p hp
    · refine hy.2 _ ?_
      rw [← s3, project]
      refine List.mem_map.2 ⟨i, List.mem_filter.2 ⟨List.mem_range.2 hi, by simpa using hm⟩, ?_⟩
      simp [List.getD_eq_getElem?_getD, hi]
  rw [e10 s y hs hy, ← s3, r3 s s1 s2, hex s hs, mul_comm]
  · intro p hp i hi
    rw [measured_unique e5 hi (hkeys p hp)]
    exact s2 p hp
  · intro j q i hj hi
    have : bitOf q = i := hbitOf _ hi
    rw [hproj']
    simp only [List.getD_eq_getElem?_getD, List.getElem?_map, hj, Option.map_some, Option.getD_some]
    rw [← this]

/-- From left to right, without discards: every qubit is measured into the bit with its own number. -/
theorem readLoop_ltr {n : Nat} (ls : List (Layer QOb QBox)) {j : Nat} {st st' : Info} (h : readLoop st ls = .ok st')
    (ht : ∀ l ∈ ls, TailBox l.box ∧ QOb.qubit ∉ l.left ∧ l.box ≠ discard) (ha : st.avail = List.range' j n) (hb : st.bitmap = (List.range j).map (fun (i : Nat) => (i, i))) :
    ∃ j', st'.bitmap = (List.range j').map (fun (i : Nat) => (i, i)) := by
  induction ls generalizing st j n with
  | nil => cases h; exact ⟨j, hb⟩
  | cons l ls ih =>
    obtain ⟨h1, h2, h3⟩ := ht l (by simp)
    have hcount : l.left.count QOb.qubit = 0 := List.count_eq_zero.2 h2
    have hlen : st.bitmap.length = j := by rw [hb]; simp
    have hnew : dictSet st.bitmap j st.bitmap.length = (List.range (j + 1)).map (fun (i : Nat) => (i, i)) := by
      rw [dictSet_new _ _ _ (by rw [hb]; simp), hlen, hb, List.range_succ, List.map_append]; rfl
    rw [readLoop] at h
    cases n with
    | zero =>
      rcases h1 with e | e | ⟨v, e⟩
      · simp [readStep, e, ha] at h
      · exact absurd e h3
      · simp [readStep, e, ha] at h
    | succ n =>
      have hav : st.avail[l.left.count QOb.qubit]? = some j := by rw [hcount, ha]; simp [List.range'_succ]
      have her : st.avail.erase j = List.range' (j + 1) n := by rw [ha, List.range'_succ, List.erase_cons_head]
      rcases h1 with e | e | ⟨v, e⟩
      · simp only [readStep, e, hav] at h
        exact ih h (fun l hl => ht l (List.mem_cons_of_mem _ hl)) her hnew
      · exact absurd e h3
      · simp only [readStep, e, hav] at h
        exact ih h (fun l hl => ht l (List.mem_cons_of_mem _ hl)) her hnew

/-- **C51 (backend, from left to right).** The condition of `C51_backend_partial` holds when the qubits are measured or post-selected from left to right, and none is discarded. -/
theorem C51_backend_ltr_partial {d : Diagram QOb QBox} {n : Nat} {gs tl : List (Layer QOb QBox)} (h : Exportable d n gs tl) {k : Nat} (hk : d.cod = List.replicate k QOb.bit)
    (hltr : ∀ l ∈ tl, QOb.qubit ∉ l.left ∧ l.box ≠ discard) : ∃ tk F, toTkCircuital d = .ok tk ∧ eval d true = .ok F ∧
      ∀ counts : Counts, (∀ e ∈ counts, e.1.length = tk.nBits) → (counts.map Prod.fst).Nodup → (∀ s, Bits tk.nBits s → counts.get s = tk.prob s) →
        ∃ result, backendEval d counts = .ok (k, result) ∧ ∀ y, Bits k y → (result y : ℂ) = F y := by
  obtain ⟨ws, st0, st, tk, t1, t2, t3, t4, t5, s1, s2, s3, s4, -⟩ := export_all h
  obtain ⟨j, hj⟩ := readLoop_ltr (n := n) (j := 0) tl s4 (fun l hl => ⟨h.tail l hl, hltr l hl⟩) (by rw [s1, List.range_eq_range']) (by rw [s2]; rfl)
  have hid : ∀ m ∈ tk.measures, m.2 = m.1 := by
    intro m hm
    rw [t4, hj] at hm
    obtain ⟨i, _, rfl⟩ := List.mem_map.1 hm
    rfl
  obtain ⟨F, hF⟩ := C74_total h.cq
  refine ⟨tk, F, t1, hF, fun counts c1 c2 c3 => ?_⟩
  obtain ⟨F', result, f1, f2, f3⟩ := C51_backend_partial h hk t1 (fun m hm _ => hid m hm) (fun m hm m' hm' _ _ hlt => by rw [hid m hm, hid m' hm']; exact hlt)
    counts c1 c2 c3
  cases hF.symm.trans f1
  exact ⟨result, f2, f3⟩

end
end QBox
end Lambeq
