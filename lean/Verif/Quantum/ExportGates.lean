import Verif.Quantum.Export

/-!
# Export of circuits (C51): gates
-/

namespace Lambeq
open Diagram
set_option linter.unusedSectionVars false
set_option linter.unusedSimpArgs false

namespace QBox
noncomputable section

/-! ## The gates that `t|ket⟩` knows -/

/-- One-qubit gates with controls at the distances `ds` (outermost first) and the operation they are exported as: type, parameters, adjoint. The phases
are not zero. -/
inductive GateOf : QBox → List Int → String → List ℝ → Bool → Prop
  | h : GateOf H [] "H" [] false
  | x : GateOf X [] "X" [] false
  | y : GateOf Y [] "Y" [] false
  | z : GateOf Z [] "Z" [] false
  | s : GateOf S [] "S" [] false
  | t : GateOf T [] "T" [] false
  | sdg : GateOf (daggered S) [] "S" [] true
  | tdg : GateOf (daggered T) [] "T" [] true
  | rx {θ : ℝ} : θ ≠ 0 → GateOf (rot .x θ) [] "Rx" [2 * θ] false
  | ry {θ : ℝ} : θ ≠ 0 → GateOf (rot .y θ) [] "Ry" [2 * θ] false
  | rz {θ : ℝ} : θ ≠ 0 → GateOf (rot .z θ) [] "Rz" [2 * θ] false
  | cx {d : Int} : d ≠ 0 → GateOf X [d] "CX" [] false
  | cz {d : Int} : d ≠ 0 → GateOf Z [d] "CZ" [] false
  | crx {d : Int} {θ : ℝ} : d ≠ 0 → θ ≠ 0 → GateOf (rot .x θ) [d] "CRx" [2 * θ] false
  | crz {d : Int} {θ : ℝ} : d ≠ 0 → θ ≠ 0 → GateOf (rot .z θ) [d] "CRz" [2 * θ] false
  | ccx {d d' : Int} : d ≠ 0 → d' ≠ 0 → GateOf X [d, d'] "CCX" [] false

/-! ## Positions of the qubits -/

theorem foldl_max_mem (l : List Nat) (m a : Nat) (hm : m ∈ l ∨ m = a) (hle : ∀ p ∈ l, p ≤ m) (ha : a ≤ m) : l.foldl max a = m := by
  induction l generalizing a with
  | nil => rcases hm with hm | hm
           · cases hm
           · simp [hm]
  | cons b l ih =>
    rw [List.foldl_cons]
    have hb := hle b (by simp)
    refine ih _ ?_ (fun p hp => hle p (List.mem_cons_of_mem _ hp)) (by omega)
    rcases hm with hm | hm
    · rcases List.mem_cons.1 hm with rfl | hm
      · right; omega
      · exact .inl hm
    · right; omega

/-- The positions of the qubits of nested controls, target last. -/
def relOf (ds : List Int) : List Nat := ds.foldr (fun d r => relStep r d) [0]

theorem relIdx_reverse (ds : List Int) : relIdx ds.reverse = relOf ds := by rw [relIdx, List.foldl_reverse]; rfl

theorem relOf_spec (ds : List Int) (h : ∀ d ∈ ds, d ≠ 0) : ∃ cs, relOf ds = cs ++ [targetPos ds] ∧ cs.length = ds.length ∧ (relOf ds).Nodup ∧
    (∀ p, p ∈ cs ↔ p ∈ controlPos ds) ∧ (∀ p ∈ relOf ds, p < width ds) ∧ width ds - 1 ∈ relOf ds := by
  induction ds with
  | nil => exact ⟨[], rfl, rfl, by simp [relOf], by simp [controlPos], by simp [relOf, width], by simp [relOf, width]⟩
  | cons d ds ih =>
    obtain ⟨cs, e1, e2, e3, e4, e5, e6⟩ := ih (fun d hd => h d (List.mem_cons_of_mem _ hd))
    have hd := h d (by simp)
    have hw : 0 < width ds := by have := targetPos_lt ds; omega
    have hrel : relOf (d :: ds) = relStep (relOf ds) d := rfl
    by_cases hpos : d > 0
    · have hr : relOf (d :: ds) = 0 :: (relOf ds).map (· + d.toNat) := by rw [hrel, relStep, if_pos hpos]
      refine ⟨0 :: cs.map (· + d.toNat), ?_, by simp [e2], ?_, ?_, ?_, ?_⟩
      · rw [hr, e1]; simp [targetPos, Nat.add_comm]
      · rw [hr, List.nodup_cons]
        refine ⟨?_, e3.map (fun a b hab => by simpa using hab)⟩
        simp only [List.mem_map, not_exists, not_and]
        intro p _ hp; omega
      · intro p
        simp only [controlPos, hpos, if_true, List.mem_cons, List.mem_map]
        refine or_congr Iff.rfl (exists_congr (fun q => ?_))
        rw [e4 q, Nat.add_comm]
      · intro p hp
        rw [hr] at hp
        simp only [width]
        rcases List.mem_cons.1 hp with rfl | hp
        · omega
        · obtain ⟨q, hq, rfl⟩ := List.mem_map.1 hp
          have := e5 q hq
          show q + d.toNat < _
          omega
      · rw [hr]
        refine List.mem_cons_of_mem _ (List.mem_map.2 ⟨_, e6, ?_⟩)
        simp only [width]; omega
    · have hmax : (relOf ds).foldl max 0 = width ds - 1 :=
        foldl_max_mem _ _ _ (.inl e6) (fun p hp => by have := e5 p hp; omega) (by omega)
      have hr : relOf (d :: ds) = (cs ++ [width ds - 1 + d.natAbs]) ++ [targetPos ds] := by
        rw [hrel, relStep, if_neg hpos, hmax, e1]; simp
      have hnew : width ds - 1 + d.natAbs = width ds + d.natAbs - 1 := by omega
      refine ⟨cs ++ [width ds - 1 + d.natAbs], ?_, by simp [e2], ?_, ?_, ?_, ?_⟩
      · rw [hr]; simp [targetPos]; omega
      · rw [hr, List.append_assoc, List.nodup_append]
        have hn := e3
        rw [e1, List.nodup_append] at hn
        refine ⟨hn.1, ?_, ?_⟩
        · have := targetPos_lt ds
          simp only [List.cons_append, List.nil_append, List.nodup_cons, List.mem_singleton, List.not_mem_nil, not_false_eq_true, List.nodup_nil, and_true]
          omega
        · intro p hp q hq
          simp only [List.cons_append, List.nil_append, List.mem_cons, List.not_mem_nil, or_false] at hq
          rcases hq with rfl | rfl
          · have := e5 p (by rw [e1]; exact List.mem_append_left _ hp); omega
          · exact hn.2.2 p hp _ (by simp)
      · intro p
        have h0 : d.toNat = 0 := by omega
        simp only [controlPos, hpos, if_false, List.mem_append, List.mem_singleton, List.mem_cons, h0, Nat.zero_add, List.map_id', e4 p, hnew]
        simp only [List.not_mem_nil, or_false]
        exact Or.comm
      · intro p hp
        rw [hr] at hp
        simp only [width]
        simp only [List.mem_append, List.mem_singleton] at hp
        rcases hp with (hp | rfl) | rfl
        · have := e5 p (by rw [e1]; exact List.mem_append_left _ hp); omega
        · omega
        · have := targetPos_lt ds; omega
      · rw [hr]
        simp only [width]
        rw [hnew]; simp

theorem pick_range (off w : Nat) (rel : List Nat) (h : ∀ p ∈ rel, p < w) : pick ((List.range w).map (off + ·)) rel = .ok (rel.map (off + ·)) := by
  induction rel with
  | nil => rfl
  | cons p rel ih =>
    have hp := h p (by simp)
    simp only [pick, List.getElem?_map, List.getElem?_range hp, Option.map_some, ih (fun q hq => h q (List.mem_cons_of_mem _ hq)), List.map_cons]

theorem distances_nest {g : QBox} (hg : g.distances = []) (ds : List Int) : (nest g ds).distances = ds.reverse := by
  induction ds with
  | nil => exact hg
  | cons d ds ih => simp [nest, distances, ih]

/-! ## Exporting one gate -/

theorem ofMatrix_mk (a b c d : ℂ) : ofMatrix !![a, b; c, d] 0 0 = a ∧ ofMatrix !![a, b; c, d] 1 0 = b ∧ ofMatrix !![a, b; c, d] 0 1 = c ∧ ofMatrix !![a, b; c, d] 1 1 = d := by
  simp [ofMatrix]

/-- The array of a one-qubit gate is the matrix. -/
def IsOp (g : QBox) (U : Matrix (Fin 2) (Fin 2) ℂ) : Prop := ∀ a, g.array = .ok a → ∀ i o, i < 2 → o < 2 → amp a i o = ofMatrix U i o

theorem isOp_mk {g : QBox} {p q r s : ℂ} (h : g.array = .ok ⟨[2, 2], [p, q, r, s]⟩) : IsOp g !![p, r; q, s] := by
  intro a ha i o hi ho
  cases ha.symm.trans h
  obtain ⟨h1, h2, h3, h4⟩ := ofMatrix_mk p r q s
  rcases (by omega : i = 0 ∨ i = 1) with rfl | rfl <;> rcases (by omega : o = 0 ∨ o = 1) with rfl | rfl
  · rw [h1]; rfl
  · rw [h3]; rfl
  · rw [h2]; rfl
  · rw [h4]; rfl

theorem isOp_dagger {g : QBox} {U : Matrix (Fin 2) (Fin 2) ℂ} (hg : g.Good) (hd : g.dom = [.qubit]) (hc : g.cod = [.qubit]) (h : IsOp g U) :
    IsOp (daggered g) U.conjTranspose := by
  intro a' ha' i o hi ho
  obtain ⟨a, ha, _⟩ := hg.array_ok
  have := get_daggered hg ha ha' [o] [i] (by rw [hd]; exact Bits.one ho) (by rw [hc]; exact Bits.one hi)
  have h2 := h a ha o i ho hi
  unfold amp at h2 ⊢
  rw [show [i, o] = [i] ++ [o] from rfl, this]
  rw [show [o] ++ [i] = [o, i] from rfl, h2]
  simp [ofMatrix, hi, ho, Matrix.conjTranspose_apply]

theorem isOp_H : IsOp H tkH := by
  have := isOp_mk (g := H) rfl
  convert this using 1
  simp [tkH, Matrix.smul_of]

theorem isOp_rx (θ : ℝ) : IsOp (rot .x θ) (tkRx (2 * θ)) := by
  have := isOp_mk (g := rot .x θ) rfl
  convert this using 1
  unfold tkRx
  rw [show Real.pi * (2 * θ) / 2 = Real.pi * θ by ring]
  push_cast
  simp

theorem isOp_ry (θ : ℝ) : IsOp (rot .y θ) (tkRy (2 * θ)) := by
  have := isOp_mk (g := rot .y θ) rfl
  convert this using 1
  unfold tkRy
  rw [show Real.pi * (2 * θ) / 2 = Real.pi * θ by ring]
  push_cast
  have h : Complex.I * Complex.sin (Real.pi * θ) * Complex.I = - Complex.sin (Real.pi * θ) := by
    rw [mul_right_comm, Complex.I_mul_I]; ring
  simp [h]

theorem isOp_rz (θ : ℝ) : IsOp (rot .z θ) (tkRz (2 * θ)) := by
  have := isOp_mk (g := rot .z θ) rfl
  convert this using 1
  unfold tkRz
  push_cast
  rw [show -Complex.I * Real.pi * (2 * (θ : ℂ)) / 2 = -Complex.I * (Real.pi * θ) by ring,
    show Complex.I * Real.pi * (2 * (θ : ℂ)) / 2 = Complex.I * (Real.pi * θ) by ring]
  simp

theorem isOp_X : IsOp X tkX := isOp_mk (g := X) rfl
theorem isOp_Y : IsOp Y tkY := isOp_mk (g := Y) rfl
theorem isOp_Z : IsOp Z tkZ := isOp_mk (g := Z) rfl
theorem isOp_S : IsOp S tkS := isOp_mk (g := S) rfl
theorem isOp_T : IsOp T tkT := isOp_mk (g := T) rfl

theorem oneQubit_daggered {g : QBox} (h : OneQubit g) : OneQubit (daggered g) := OneQubit.mk (g := daggered g) h.good h.cod h.dom

/-- `from_box` of a gate with controls. -/
theorem fromBox_controlled {g : QBox} (hg : OneQubit g) (hgd : g.distances = []) (d : Int) (ds : List Int) (h : ∀ k ∈ d :: ds, k ≠ 0) (off : Nat)
    {ph : Phase} {t : String} (ht : (nest g (d :: ds)).nameHead.1 = t)
    (hph : (if t = "CRx" ∨ t = "CRz" then controlledPhase (nest g ds) else .ok .none) = .ok ph) :
    ∃ qs, qs = (relOf (d :: ds)).map (off + ·) ∧
      fromBox (nest g (d :: ds)) off = .ok ⟨t, qs, ph, false, some (qs.dropLast.mergeSort (· ≤ ·)), qs.getLast?⟩ := by
  obtain ⟨cs, e1, e2, e3, e4, e5, e6⟩ := relOf_spec (d :: ds) h
  refine ⟨_, rfl, ?_⟩
  have hw : (nest g (d :: ds)).dom.length = width (d :: ds) := (nest_dom g (by rw [hg.dom]; rfl) (d :: ds)).1
  have hp := pick_range off (width (d :: ds)) _ e5
  rw [← relIdx_reverse, ← distances_nest hgd] at hp
  unfold fromBox
  rw [hw]
  show (match pick ((List.range (width (d :: ds))).map (off + ·)) (relIdx (distances (controlled (nest g ds) d))) with
    | .error e => Except.error e
    | .ok qs => match (if (nest g (d :: ds)).nameHead.1 = "CRx" ∨ (nest g (d :: ds)).nameHead.1 = "CRz" then controlledPhase (nest g ds) else .ok .none) with
      | .error e => .error e
      | .ok ph => .ok (Gate.mk (nest g (d :: ds)).nameHead.1 qs ph false (some (qs.dropLast.mergeSort (· ≤ ·))) qs.getLast?)) = _
  rw [show distances (controlled (nest g ds) d) = distances (nest g (d :: ds)) from rfl, hp]
  simp only [ht, hph]
  rw [distances_nest hgd, relIdx_reverse]

/-- What `from_box` and `t|ket⟩` say about a gate of the table. -/
theorem GateOf.spec {g : QBox} {ds : List Int} {t : String} {ps : List ℝ} {dg : Bool} (hgate : GateOf g ds t ps dg) :
    OneQubit g ∧ (∀ d ∈ ds, d ≠ 0) ∧ t ≠ "SWAP" ∧ t ≠ "Scalar" ∧ opSig t = some (ps.length, ds.length + 1) ∧
    IsOp g (if dg then (baseOp t ps).conjTranspose else baseOp t ps) ∧
    ∀ off, ∃ gate, fromBox (nest g ds) off = .ok gate ∧ gate.gtype = t ∧ gate.qubits = (relOf ds).map (off + ·) ∧ phaseParams gate.phase = ps ∧ gate.dagger = dg := by
  obtain ⟨oH, oS, oT, oX, oY, oZ, oR⟩ := oneQubit_gates
  cases hgate with
  | h => exact ⟨oH, by simp, by decide, by decide, by decide, isOp_H, fun off => ⟨_, rfl, rfl, rfl, rfl, rfl⟩⟩
  | x => exact ⟨oX, by simp, by decide, by decide, by decide, isOp_X, fun off => ⟨_, rfl, rfl, rfl, rfl, rfl⟩⟩
  | y => exact ⟨oY, by simp, by decide, by decide, by decide, isOp_Y, fun off => ⟨_, rfl, rfl, rfl, rfl, rfl⟩⟩
  | z => exact ⟨oZ, by simp, by decide, by decide, by decide, isOp_Z, fun off => ⟨_, rfl, rfl, rfl, rfl, rfl⟩⟩
  | s => exact ⟨oS, by simp, by decide, by decide, by decide, isOp_S, fun off => ⟨_, rfl, rfl, rfl, rfl, rfl⟩⟩
  | t => exact ⟨oT, by simp, by decide, by decide, by decide, isOp_T, fun off => ⟨_, rfl, rfl, rfl, rfl, rfl⟩⟩
  | sdg => exact ⟨oneQubit_daggered oS, by simp, by decide, by decide, by decide, isOp_dagger oS.good rfl rfl isOp_S, fun off => ⟨_, rfl, rfl, rfl, rfl, rfl⟩⟩
  | tdg => exact ⟨oneQubit_daggered oT, by simp, by decide, by decide, by decide, isOp_dagger oT.good rfl rfl isOp_T, fun off => ⟨_, rfl, rfl, rfl, rfl, rfl⟩⟩
  | rx hθ => exact ⟨oR _ _, by simp, by decide, by decide, by simp [opSig], isOp_rx _, fun off => ⟨_, rfl, rfl, rfl, by simp [phaseParams, hθ], rfl⟩⟩
  | ry hθ => exact ⟨oR _ _, by simp, by decide, by decide, by simp [opSig], isOp_ry _, fun off => ⟨_, rfl, rfl, rfl, by simp [phaseParams, hθ], rfl⟩⟩
  | rz hθ => exact ⟨oR _ _, by simp, by decide, by decide, by simp [opSig], isOp_rz _, fun off => ⟨_, rfl, rfl, rfl, by simp [phaseParams, hθ], rfl⟩⟩
  | @cx d hd =>
    have hk : ∀ k ∈ [d], k ≠ 0 := by simpa using hd
    refine ⟨oX, hk, by decide, by decide, by simp [opSig], isOp_X, fun off => ?_⟩
    obtain ⟨qs, e1, e2⟩ := fromBox_controlled oX rfl d [] hk off (t := "CX") (ph := .none) rfl (by simp)
    exact ⟨_, e2, rfl, e1, rfl, rfl⟩
  | @cz d hd =>
    have hk : ∀ k ∈ [d], k ≠ 0 := by simpa using hd
    refine ⟨oZ, hk, by decide, by decide, by simp [opSig], isOp_Z, fun off => ?_⟩
    obtain ⟨qs, e1, e2⟩ := fromBox_controlled oZ rfl d [] hk off (t := "CZ") (ph := .none) rfl (by simp)
    exact ⟨_, e2, rfl, e1, rfl, rfl⟩
  | @crx d θ hd hθ =>
    have hk : ∀ k ∈ [d], k ≠ 0 := by simpa using hd
    refine ⟨oR _ _, hk, by decide, by decide, by simp [opSig], isOp_rx θ, fun off => ?_⟩
    obtain ⟨qs, e1, e2⟩ := fromBox_controlled (oR .x θ) rfl d [] hk off (t := "CRx") (ph := .angle θ) rfl rfl
    exact ⟨_, e2, rfl, e1, by simp [phaseParams, hθ], rfl⟩
  | @crz d θ hd hθ =>
    have hk : ∀ k ∈ [d], k ≠ 0 := by simpa using hd
    refine ⟨oR _ _, hk, by decide, by decide, by simp [opSig], isOp_rz θ, fun off => ?_⟩
    obtain ⟨qs, e1, e2⟩ := fromBox_controlled (oR .z θ) rfl d [] hk off (t := "CRz") (ph := .angle θ) rfl rfl
    exact ⟨_, e2, rfl, e1, by simp [phaseParams, hθ], rfl⟩
  | @ccx d d' hd hd' =>
    have hk : ∀ k ∈ [d, d'], k ≠ 0 := by simpa using ⟨hd, hd'⟩
    refine ⟨oX, hk, by decide, by decide, by simp [opSig], isOp_X, fun off => ?_⟩
    obtain ⟨qs, e1, e2⟩ := fromBox_controlled oX rfl d [d'] hk off (t := "CCX") (ph := .none) rfl (by simp)
    exact ⟨_, e2, rfl, e1, rfl, rfl⟩

end
end QBox
end Lambeq
