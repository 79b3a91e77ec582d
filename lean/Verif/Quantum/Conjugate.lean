import Verif.Quantum.Structural

/-!
# Conjugates of circuits (C72)

Models `circuit.rotate(z)`, `circuit.l` and `circuit.r` in the quantum category: `Layer.rotate` (grammar.py:622-632) and `Diagram.rotate`
(grammar.py:1050-1062) with the methods `rotate` of the boxes (`QBox.rotate` in `Quantum/Box.lean`) and of types (tensor.py:93-97, grammar.py:307-321).
-/

namespace Lambeq
open Diagram
set_option linter.unusedSectionVars false
set_option linter.unusedSimpArgs false

namespace QBox
noncomputable section

/-- `Ty.rotate(z)`: tensor.py:93-97 with grammar.py:307-321. -/
def rotTy (z : Int) (t : List QOb) : List QOb := if z % 2 = 1 then t.reverse else t

/-- `Layer.rotate`, grammar.py:622-632. -/
def lrotate (z : Int) (l : Layer QOb QBox) : Except PyErr (Layer QOb QBox) :=
  match l.box.rotate z with
  | .error e => .error e
  | .ok b => .ok (if z % 2 = 1 then ⟨rotTy z l.right, b, rotTy z l.left⟩ else ⟨rotTy z l.left, b, rotTy z l.right⟩)

/-- `Diagram.rotate`, grammar.py:1050-1054. -/
def drotate (z : Int) (d : Diagram QOb QBox) : Except PyErr (Diagram QOb QBox) :=
  match d.layers.mapM (lrotate z) with
  | .error e => .error e
  | .ok ls => .ok ⟨rotTy z d.dom, rotTy z d.cod, ls⟩

/-! ## Specification -/

/-- The array of the box does not change when all entries are conjugated and the wires are read from right to left. -/
def RealSym (b : QBox) : Prop :=
  b.dom.reverse = b.dom ∧ b.cod.reverse = b.cod ∧
    ∀ a, b.array = .ok a → ∀ x y, Bits b.dom.length x → Bits b.cod.length y → a.get (x.reverse ++ y.reverse) = star (a.get (x ++ y))

/-- The boxes that can be conjugated: plain boxes whose data is an array with two entries per axis; boxes of the class `SelfConjugate` that deserve the
name; rotations, kets and bras, swaps; and what `Controlled` and `Daggered` make of them. Not `Bit`, `Scalar` and `Sqrt`. -/
def Conj : QBox → Prop
  | gen _ d c a _ _ _ => ∃ r, a = some r ∧ r.OK ∧ r.shape = List.replicate (d.length + c.length) 2
  | selfConj n d c a sa => RealSym (selfConj n d c a sa)
  | controlled u _ => u.Conj
  | daggered b => b.Conj
  | bit _ | scalar _ | sqrt _ => False
  | _ => True

theorem Bits.reverse {n : Nat} {x : List Nat} (h : Bits n x) : Bits n x.reverse :=
  ⟨by rw [List.length_reverse]; exact h.1, fun b hb => h.2 b (List.mem_reverse.1 hb)⟩

theorem qubits_reverse (n : Nat) : (qubits n).reverse = qubits n := by simp [qubits]

theorem rotDim_qDims (z : Int) (t : List QOb) : rotDim z (qDims t) = qDims (rotTy z t) := by
  unfold rotDim rotTy
  split
  · simp [qDims]
  · rfl

theorem gen_shaped {n : String} {d c : List QOb} {a : Option (NdArray ℂ)} {z : Int} {m sa : Bool} (h : (gen n d c a z m sa).Conj) :
    (TBox.gen n (qDims d) (qDims c) a z).Shaped := by
  obtain ⟨r, rfl, ok, hs⟩ := h
  refine ⟨r, rfl, ok, ?_⟩
  rw [hs, qDims_eq, qDims_eq, List.reverse_replicate, List.reverse_replicate, List.replicate_append_replicate, ite_self]

theorem ctrlSplit_reverse {d : Int} (_hd : d ≠ 0) {x : List Nat} {c : Nat} {s t : List Nat} (h : CtrlSplit d x c s t) :
    CtrlSplit (-d) x.reverse c s.reverse t.reverse := by
  obtain ⟨h1, rfl⟩ := h
  refine ⟨by rw [List.length_reverse, h1]; omega, ?_⟩
  by_cases hp : d > 0
  · rw [if_pos hp, if_neg (by omega)]; simp
  · rw [if_neg hp, if_pos (by omega)]; simp

/-- The conjugate of a box has the conjugate array with reversed wires. -/
theorem rotate_spec {b : QBox} (hg : b.Good) (hc : b.Conj) {z : Int} (hz : z % 2 = 1) :
    ∃ b', b.rotate z = .ok b' ∧ b'.Good ∧ b'.dom = b.dom.reverse ∧ b'.cod = b.cod.reverse ∧ ∀ a a', b.array = .ok a → b'.array = .ok a' →
      ∀ x y, Bits b.dom.length x → Bits b.cod.length y → a'.get (x.reverse ++ y.reverse) = star (a.get (x ++ y)) := by
  induction b with
  | gen n d c a z0 m sa =>
    have hs := gen_shaped hc
    have hs' := hs.rotate z
    simp only [TBox.rotate, rotDim_qDims, rotTy, if_pos hz] at hs'
    have hg' : (gen n d.reverse c.reverse a ((z0 + z) % 2) false false).Good := hs'.evaluable (by simp)
    refine ⟨gen n d.reverse c.reverse a ((z0 + z) % 2) false false, by simp [rotate, hz], hg', rfl, rfl, fun A A' e e' x y hx hy => ?_⟩
    have := TBox.ten_rotate (.gen hs) z hz (i := x) (o := y) (bits_qDims hx) (bits_qDims hy)
    simp only [TBox.rotate, rotDim_qDims, rotTy, if_pos hz] at this
    rw [TBox.ten_data rfl (a := A') e', TBox.ten_data rfl (a := A) e] at this
    exact this
  | selfConj n d c a sa =>
    refine ⟨_, rfl, hg, hc.1.symm, hc.2.1.symm, fun A A' e e' x y hx hy => ?_⟩
    cases e.symm.trans e'
    exact hc.2.2 A e x y hx hy
  | ket b =>
    refine ⟨_, rfl, trivial, rfl, rfl, fun a a' e e' x y hx hy => ?_⟩
    cases e; cases e'
    obtain rfl := hx.eq_nil
    obtain ⟨c, w, rfl, hc, hw⟩ := Bits.uncons (n := 0) hy
    obtain rfl := hw.eq_nil
    cases b <;> interval_cases c <;> simp [NdArray.get, ravel]
  | bra b =>
    refine ⟨_, rfl, trivial, rfl, rfl, fun a a' e e' x y hx hy => ?_⟩
    cases e; cases e'
    obtain rfl := hy.eq_nil
    obtain ⟨c, w, rfl, hc, hw⟩ := Bits.uncons (n := 0) hx
    obtain rfl := hw.eq_nil
    cases b <;> interval_cases c <;> simp [NdArray.get, ravel]
  | rot ax θ =>
    have hs : (starRingEnd ℂ) (Complex.sin (Real.pi * θ)) = Complex.sin (Real.pi * θ) := by
      rw [← Complex.sin_conj]; simp
    have hc0 : (starRingEnd ℂ) (Complex.cos (Real.pi * θ)) = Complex.cos (Real.pi * θ) := by
      rw [← Complex.cos_conj]; simp
    have he : ∀ z : ℂ, (starRingEnd ℂ) (Complex.exp z) = Complex.exp ((starRingEnd ℂ) z) := fun z => (Complex.exp_conj z).symm
    have key : ∀ ax' θ', (rot ax θ).rotate z = .ok (rot ax' θ') →
        (∀ c < 2, ∀ c' < 2, (rotArray ax' θ').get [c, c'] = star ((rotArray ax θ).get [c, c'])) → ∃ b', (rot ax θ).rotate z = .ok b' ∧ b'.Good ∧
        b'.dom = (rot ax θ).dom.reverse ∧ b'.cod = (rot ax θ).cod.reverse ∧ ∀ a a', (rot ax θ).array = .ok a → b'.array = .ok a' →
      ∀ x y, Bits (rot ax θ).dom.length x → Bits (rot ax θ).cod.length y → a'.get (x.reverse ++ y.reverse) = star (a.get (x ++ y)) := by
      intro ax' θ' e h
      refine ⟨_, e, trivial, rfl, rfl, fun a a' e e' x y hx hy => ?_⟩
      cases e; cases e'
      obtain ⟨c, w, rfl, hc, hw⟩ := Bits.uncons (n := 0) hx
      obtain rfl := hw.eq_nil
      obtain ⟨c', w', rfl, hc', hw'⟩ := Bits.uncons (n := 0) hy
      obtain rfl := hw'.eq_nil
      exact h c hc c' hc'
    cases ax with
    | x =>
      refine key .x (-θ) (by simp [rotate, hz, dagger]) (fun c hc c' hc' => ?_)
      interval_cases c <;> interval_cases c' <;> simp [rotArray, NdArray.get, ravel, hs, hc0, he]
    | y =>
      refine key .y θ (by simp [rotate]) (fun c hc c' hc' => ?_)
      interval_cases c <;> interval_cases c' <;> simp [rotArray, NdArray.get, ravel, hs, hc0, he]
    | z =>
      refine key .z (-θ) (by simp [rotate, hz, dagger]) (fun c hc c' hc' => ?_)
      interval_cases c <;> interval_cases c' <;> simp [rotArray, NdArray.get, ravel, hs, hc0, he]
  | controlled u d ih =>
    obtain ⟨hd, hu, hsq⟩ := hg
    obtain ⟨u', g0, g1, g2, g3, g4⟩ := ih hu hc
    have hlen : u'.dom.length = u.dom.length := by rw [g2, List.length_reverse]
    refine ⟨controlled u' (-d), by simp [rotate, hz, g0], ⟨by omega, g1, by rw [g3, g2]; simpa using hsq⟩, ?_, ?_, fun A A' e e' x y hx hy => ?_⟩
    · show qubits (u'.dom.length + _) = (qubits (u.dom.length + _)).reverse; rw [hlen, Int.natAbs_neg, qubits_reverse]
    · show qubits (u'.dom.length + _) = (qubits (u.dom.length + _)).reverse; rw [hlen, Int.natAbs_neg, qubits_reverse]
    · have hx : Bits (u.dom.length + d.natAbs) x := by rw [← qubits_length (u.dom.length + d.natAbs)]; exact hx
      have hy : Bits (u.dom.length + d.natAbs) y := by rw [← qubits_length (u.dom.length + d.natAbs)]; exact hy
      obtain ⟨a, ea, oka, sa⟩ := hu.array_ok
      obtain ⟨a', ea', oka', sa'⟩ := g1.array_ok
      obtain ⟨B, b1, _, _, b4⟩ := array_controlled_spec u d hd ea oka (by rw [sa, hsq, two_mul])
      obtain ⟨B', b1', _, _, b4'⟩ := array_controlled_spec u' (-d) (by omega) ea' oka' (by rw [sa', g3, g2]; simp [hsq, two_mul])
      cases e.symm.trans b1
      cases e'.symm.trans b1'
      obtain ⟨c, s, t, hs, ht⟩ := ctrlSplit_exists hd hx
      obtain ⟨c', s', t', hs', ht'⟩ := ctrlSplit_exists hd hy
      have k1 := ctrlSplit_bits ht hx hs
      have k2 := ctrlSplit_bits ht' hy hs'
      rw [b4' x.reverse c s.reverse t.reverse y.reverse c' s'.reverse t'.reverse (by rw [hlen, List.length_reverse, ht])
          (by rw [hlen, List.length_reverse, ht']) (by rw [hlen, Int.natAbs_neg]; exact hx.reverse) (by rw [hlen, Int.natAbs_neg]; exact hy.reverse)
          (ctrlSplit_reverse hd hs) (ctrlSplit_reverse hd hs'),
        b4 x c s t y c' s' t' ht ht' hx hy hs hs']
      by_cases es : s = s'
      · rw [if_pos es, if_pos (by rw [es])]
        unfold ctrl
        by_cases ec : c = c'
        · subst ec
          rw [if_pos rfl, if_pos rfl]
          by_cases h1 : c = 1
          · rw [if_pos h1, if_pos h1]; exact g4 a a' ea ea' t t' k1.2 (hsq ▸ k2.2)
          · rw [if_neg h1, if_neg h1]
            by_cases et : t = t'
            · rw [if_pos et, if_pos (by rw [et]), star_one]
            · rw [if_neg et, if_neg (fun h => et (List.reverse_injective h)), star_zero]
        · rw [if_neg ec, if_neg ec, star_zero]
      · rw [if_neg es, if_neg (fun h => es (List.reverse_injective h)), star_zero]
  | daggered b ih =>
    have hg : b.Good := hg
    obtain ⟨b', g0, g1, g2, g3, g4⟩ := ih hg hc
    refine ⟨daggered b', by simp [rotate, g0], g1, g3, g2, fun a a' e e' x y hx hy => ?_⟩
    obtain ⟨A, eA, _⟩ := hg.array_ok
    obtain ⟨A', eA', _⟩ := g1.array_ok
    rw [get_daggered hg eA e y x hy hx,
      get_daggered g1 eA' e' y.reverse x.reverse (by rw [g2, List.length_reverse]; exact Bits.reverse hy) (by rw [g3, List.length_reverse]; exact Bits.reverse hx),
      g4 A A' eA eA' y x hy hx]
  | scalar c => exact hc.elim
  | sqrt c => exact hc.elim
  | bit c => exact hc.elim
  | _ => exact hg.elim

/-- A rotation by an even number does not change the array of a box. -/
theorem rotate_even {b : QBox} (hg : b.Good) (hc : b.Conj) {z : Int} (hz : z % 2 = 0) :
    ∃ b', b.rotate z = .ok b' ∧ b'.Good ∧ b'.dom = b.dom ∧ b'.cod = b.cod ∧ b'.array = b.array := by
  have hz1 : ¬ z % 2 = 1 := by omega
  induction b with
  | gen n d c a z0 m sa =>
    refine ⟨gen n d c a ((z0 + z) % 2) false false, by simp [rotate, hz1], ?_, rfl, rfl, ?_⟩
    · have h2 : ((gen n d c a ((z0 + z) % 2) false false).Conj) := hc
      exact (gen_shaped h2).evaluable (by simp)
    · have : ((z0 + z) % 2 % 2 = 1) = (z0 % 2 = 1) := by apply propext; omega
      simp only [array, TBox.array, this]
  | selfConj n d c a sa => exact ⟨_, rfl, hg, rfl, rfl, rfl⟩
  | ket b => exact ⟨_, rfl, hg, rfl, rfl, rfl⟩
  | bra b => exact ⟨_, rfl, hg, rfl, rfl, rfl⟩
  | rot ax θ => cases ax <;> exact ⟨_, by simp [rotate, hz], hg, rfl, rfl, rfl⟩
  | controlled u d ih => exact ⟨_, by simp [rotate, hz], hg, rfl, rfl, rfl⟩
  | daggered b ih =>
    have hg : b.Good := hg
    obtain ⟨b', g0, g1, g2, g3, g4⟩ := ih hg hc
    refine ⟨daggered b', by simp [rotate, g0], g1, g3, g2, ?_⟩
    simp only [array, g2, g3, g4]
  | scalar c => exact hc.elim
  | sqrt c => exact hc.elim
  | bit c => exact hc.elim
  | _ => exact hg.elim

/-- A pure circuit of boxes that can be conjugated. -/
structure ConjOK (d : Diagram QOb QBox) : Prop extends PureOK d where
  conj : ∀ l ∈ d.layers, l.box.Conj

/-- The conjugate of a box, if there is one. -/
def conjBox (z : Int) (b : QBox) : QBox := match b.rotate z with
  | .ok b' => b'
  | .error _ => b

theorem rotate_conjBox {b : QBox} (h : b.Good ∨ ∃ x y, b = swap x y) (hc : b.Conj) {z : Int} : b.rotate z = .ok (conjBox z b) := by
  rcases h with h | ⟨x, y, rfl⟩
  · rcases Int.emod_two_eq_zero_or_one z with hz | hz
    · obtain ⟨b', e, _⟩ := rotate_even h hc hz; simp only [conjBox, e]
    · obtain ⟨b', e, _⟩ := rotate_spec h hc hz; simp only [conjBox, e]
  · rfl

theorem mapM_ok_map {α β : Type} {f : α → Except PyErr β} {g : α → β} : ∀ {l : List α}, (∀ a ∈ l, f a = .ok (g a)) → l.mapM f = .ok (l.map g)
  | [], _ => rfl
  | a :: l, h => by
      rw [List.mapM_cons, h a (by simp), mapM_ok_map (l := l) (fun b hb => h b (List.mem_cons_of_mem _ hb))]
      rfl

theorem drotate_odd {d : Diagram QOb QBox} (h : ConjOK d) {z : Int} (hz : z % 2 = 1) :
    drotate z d = .ok ⟨d.dom.reverse, d.cod.reverse, d.layers.map (fun l => ⟨l.right.reverse, conjBox z l.box, l.left.reverse⟩)⟩ := by
  have : d.layers.mapM (lrotate z) = .ok (d.layers.map (fun l => ⟨l.right.reverse, conjBox z l.box, l.left.reverse⟩)) := by
    refine mapM_ok_map (fun l hl => ?_)
    simp only [lrotate, rotate_conjBox (h.boxes l hl) (h.conj l hl), hz, if_true, rotTy]
  simp only [drotate, this, rotTy, hz, if_true]

theorem drotate_even {d : Diagram QOb QBox} (h : ConjOK d) {z : Int} (hz : z % 2 = 0) :
    drotate z d = .ok ⟨d.dom, d.cod, d.layers.map (fun l => ⟨l.left, conjBox z l.box, l.right⟩)⟩ := by
  have hz1 : ¬ z % 2 = 1 := by omega
  have : d.layers.mapM (lrotate z) = .ok (d.layers.map (fun l => ⟨l.left, conjBox z l.box, l.right⟩)) := by
    refine mapM_ok_map (fun l hl => ?_)
    simp only [lrotate, rotate_conjBox (h.boxes l hl) (h.conj l hl), hz1, if_false, rotTy]
  simp only [drotate, this, rotTy, hz1, if_false]

theorem conjBox_odd {b : QBox} (h : b.Good ∨ ∃ x y, b = swap x y) (hc : b.Conj) {z : Int} (hz : z % 2 = 1) :
    ((conjBox z b).Good ∨ ∃ x y, conjBox z b = swap x y) ∧ (conjBox z b).dom = b.dom.reverse ∧ (conjBox z b).cod = b.cod.reverse ∧
      ∀ x y, Bits b.dom.length x → Bits b.cod.length y → tnCat.interp.ten (conjBox z b) x.reverse y.reverse = star (tnCat.interp.ten b x y) := by
  rcases h with h | ⟨p, q, rfl⟩
  · obtain ⟨b', e, g1, g2, g3, g4⟩ := rotate_spec h hc hz
    have e' : conjBox z b = b' := by simp only [conjBox, e]
    rw [e']
    refine ⟨.inl g1, g2, g3, fun x y hx hy => ?_⟩
    obtain ⟨a, ea, _⟩ := h.array_ok
    obtain ⟨a', ea', _⟩ := g1.array_ok
    rw [tnCat_std.ten h.kind ea, tnCat_std.ten g1.kind ea', g4 a a' ea ea' x y hx hy]
  · have e' : conjBox z (swap p q) = swap q p := by simp [conjBox, rotate, hz]
    rw [e']
    refine ⟨.inr ⟨_, _, rfl⟩, rfl, rfl, fun x y hx hy => ?_⟩
    show (if y.reverse = x.reverse.reverse then (1 : ℂ) else 0) = star (if y = x.reverse then (1 : ℂ) else 0)
    by_cases e : y = x.reverse
    · rw [if_pos e, if_pos (by rw [e]), star_one]
    · rw [if_neg e, if_neg (fun h => e (List.reverse_injective h)), star_zero]

theorem conjBox_even {b : QBox} (h : b.Good ∨ ∃ x y, b = swap x y) (hc : b.Conj) {z : Int} (hz : z % 2 = 0) :
    ((conjBox z b).Good ∨ ∃ x y, conjBox z b = swap x y) ∧ (conjBox z b).dom = b.dom ∧ (conjBox z b).cod = b.cod ∧
      ∀ x y, tnCat.interp.ten (conjBox z b) x y = tnCat.interp.ten b x y := by
  rcases h with h | ⟨p, q, rfl⟩
  · obtain ⟨b', e, g1, g2, g3, g4⟩ := rotate_even h hc hz
    have e' : conjBox z b = b' := by simp only [conjBox, e]
    rw [e']
    refine ⟨.inl g1, g2, g3, fun x y => ?_⟩
    obtain ⟨a, ea, _⟩ := h.array_ok
    rw [tnCat_std.ten h.kind ea, tnCat_std.ten g1.kind (g4.trans ea)]
  · have e' : conjBox z (swap p q) = swap p q := by simp [conjBox, rotate, hz]
    rw [e']
    exact ⟨.inr ⟨_, _, rfl⟩, rfl, rfl, fun _ _ => rfl⟩

theorem chain_conj (brot : QBox → QBox) {ls : List (Layer QOb QBox)}
    (hb : ∀ l ∈ ls, (brot l.box).dom = l.box.dom.reverse ∧ (brot l.box).cod = l.box.cod.reverse) {a c : List QOb} (h : Chain a ls c) :
    Chain a.reverse (ls.map (fun l => (⟨l.right.reverse, brot l.box, l.left.reverse⟩ : Layer QOb QBox))) c.reverse := by
  induction ls generalizing a with
  | nil => obtain rfl : a = c := h; rfl
  | cons l ls ih =>
    obtain ⟨h1, h2⟩ := h
    subst h1
    have hl : BoxSig.dom (brot l.box) = (BoxSig.dom l.box).reverse ∧ BoxSig.cod (brot l.box) = (BoxSig.cod l.box).reverse := hb l (by simp)
    refine ⟨by simp [Layer.dom, hl], ?_⟩
    have := ih (fun m hm => hb m (List.mem_cons_of_mem _ hm)) h2
    simpa [Layer.cod, hl] using this

theorem chain_same (brot : QBox → QBox) {ls : List (Layer QOb QBox)} (hb : ∀ l ∈ ls, (brot l.box).dom = l.box.dom ∧ (brot l.box).cod = l.box.cod)
    {a c : List QOb} (h : Chain a ls c) : Chain a (ls.map (fun l => (⟨l.left, brot l.box, l.right⟩ : Layer QOb QBox))) c := by
  induction ls generalizing a with
  | nil => exact h
  | cons l ls ih =>
    obtain ⟨h1, h2⟩ := h
    subst h1
    have hl : BoxSig.dom (brot l.box) = BoxSig.dom l.box ∧ BoxSig.cod (brot l.box) = BoxSig.cod l.box := hb l (by simp)
    refine ⟨by simp [Layer.dom, hl], ?_⟩
    have := ih (fun m hm => hb m (List.mem_cons_of_mem _ hm)) h2
    simpa [Layer.cod, hl] using this

theorem run_same (brot : QBox → QBox) {ls : List (Layer QOb QBox)} (hb : ∀ l ∈ ls, (brot l.box).dom = l.box.dom ∧ (brot l.box).cod = l.box.cod)
    (ht : ∀ l ∈ ls, ∀ x y, tnCat.interp.ten (brot l.box) x y = tnCat.interp.ten l.box x y) (v : List Nat → ℂ) :
    tnCat.interp.run (ls.map (fun l => (⟨l.left, brot l.box, l.right⟩ : Layer QOb QBox))) v = tnCat.interp.run ls v := by
  induction ls generalizing v with
  | nil => rfl
  | cons l ls ih =>
    have hl : BoxSig.dom (brot l.box) = BoxSig.dom l.box ∧ BoxSig.cod (brot l.box) = BoxSig.cod l.box := hb l (by simp)
    rw [List.map_cons, Interp.run, Interp.run, ih (fun m hm => hb m (List.mem_cons_of_mem _ hm)) (fun m hm => ht m (List.mem_cons_of_mem _ hm))]
    congr 1
    funext y
    simp only [Interp.act, hl.1, hl.2, ht l (by simp)]

/-- The conjugate of a circuit with a known matrix. -/
theorem Den.drotate_odd {d : Diagram QOb QBox} {a c : List QOb} {M : List Nat → List Nat → ℂ} (h : Den d a c M) (hc : ∀ l ∈ d.layers, l.box.Conj)
    {z : Int} (hz : z % 2 = 1) :
    ∃ d', drotate z d = .ok d' ∧ Den d' a.reverse c.reverse (fun x y => star (M x.reverse y.reverse)) := by
  have hC : ConjOK d := ⟨h.pure, hc⟩
  have hb := fun l hl => conjBox_odd (h.pure.boxes l hl) (hc l hl) hz
  refine ⟨_, QBox.drotate_odd hC hz, ⟨⟨chain_conj (conjBox z) (fun l hl => ⟨(hb l hl).2.1, (hb l hl).2.2.1⟩) h.pure.wt, fun l hl => ?_⟩, ?_, ?_, fun x y hx hy => ?_⟩⟩
  · obtain ⟨l', hl', rfl⟩ := List.mem_map.1 hl
    exact (hb l' hl').1
  · rw [h.dom]
  · rw [h.cod]
  · rw [List.length_reverse] at hx hy
    have := tnCat.interp.run_conj_on (conjBox z) (fun l hl => ⟨(hb l hl).2.1, (hb l hl).2.2.1⟩) h.pure.wt
      (fun l hl i hi o ho => (hb l hl).2.2.2 i o ((mem_idxQ dim_tn).1 hi) ((mem_idxQ dim_tn).1 ho))
      ((mem_idxQ dim_tn).2 (show Bits d.dom.length x.reverse by rw [h.dom]; exact Bits.reverse hx))
      ((mem_idxQ dim_tn).2 (show Bits d.cod.length y.reverse by rw [h.cod]; exact Bits.reverse hy))
    rw [List.reverse_reverse, List.reverse_reverse] at this
    rw [← h.val x.reverse y.reverse (Bits.reverse hx) (Bits.reverse hy)]
    exact this

theorem Den.drotate_even {d : Diagram QOb QBox} {a c : List QOb} {M : List Nat → List Nat → ℂ} (h : Den d a c M) (hc : ∀ l ∈ d.layers, l.box.Conj)
    {z : Int} (hz : z % 2 = 0) : ∃ d', drotate z d = .ok d' ∧ Den d' a c M := by
  have hC : ConjOK d := ⟨h.pure, hc⟩
  have hb := fun l hl => conjBox_even (h.pure.boxes l hl) (hc l hl) hz
  refine ⟨_, QBox.drotate_even hC hz, ⟨⟨chain_same (conjBox z) (fun l hl => ⟨(hb l hl).2.1, (hb l hl).2.2.1⟩) h.pure.wt, fun l hl => ?_⟩, h.dom, h.cod, fun x y hx hy => ?_⟩⟩
  · obtain ⟨l', hl', rfl⟩ := List.mem_map.1 hl
    exact (hb l' hl').1
  · rw [← h.val x y hx hy]
    show tnCat.interp.run _ _ _ = tnCat.interp.run _ _ _
    rw [run_same (conjBox z) (fun l hl => ⟨(hb l hl).2.1, (hb l hl).2.2.1⟩) (fun l hl => (hb l hl).2.2.2)]

/-! ## C72 -/

/-- **C72.** If its boxes can be conjugated, a circuit rotated an odd number of times (`circuit.l`, `circuit.r`) evaluates to the complex conjugate with inputs
and outputs read from right to left, and rotated an even number of times to the same values. -/
theorem C72_conjugate_partial {d : Diagram QOb QBox} (h : ConjOK d) (z : Int) :
    ∃ d' F F', drotate z d = .ok d' ∧ pureEval d = .ok F ∧ pureEval d' = .ok F' ∧
      (z % 2 = 1 → d'.dom = d.dom.reverse ∧ d'.cod = d.cod.reverse ∧
        ∀ x y, Bits d.dom.length x → Bits d.cod.length y → F' (x.reverse ++ y.reverse) = star (F (x ++ y))) ∧
      (z % 2 = 0 → d'.dom = d.dom ∧ d'.cod = d.cod ∧
        ∀ x y, Bits d.dom.length x → Bits d.cod.length y → F' (x ++ y) = F (x ++ y)) := by
  obtain ⟨F, f1, f2⟩ := h.toPureOK.den.eval
  rcases Int.emod_two_eq_zero_or_one z with hz | hz
  · obtain ⟨d', e, hd⟩ := h.toPureOK.den.drotate_even h.conj hz
    obtain ⟨F', f1', f2'⟩ := hd.eval
    exact ⟨d', F, F', e, f1, f1', fun h' => by omega, fun _ => ⟨hd.dom, hd.cod, fun x y hx hy => by rw [f2' x y hx hy, f2 x y hx hy]⟩⟩
  · obtain ⟨d', e, hd⟩ := h.toPureOK.den.drotate_odd h.conj hz
    obtain ⟨F', f1', f2'⟩ := hd.eval
    refine ⟨d', F, F', e, f1, f1', fun _ => ⟨hd.dom, hd.cod, fun x y hx hy => ?_⟩, fun h' => by omega⟩
    rw [f2' x.reverse y.reverse (by rw [List.length_reverse]; exact Bits.reverse hx) (by rw [List.length_reverse]; exact Bits.reverse hy), f2 x y hx hy,
      List.reverse_reverse, List.reverse_reverse]

/-- The conjugate of a box keeps the promises of `Adj` and can be conjugated again. -/
theorem conj_conjBox {b : QBox} (hg : b.Good ∨ ∃ x y, b = swap x y) (hc : b.Conj) (ha : b.Adj) (z : Int) : (conjBox z b).Conj ∧ (conjBox z b).Adj := by
  rcases hg with hg | ⟨x, y, rfl⟩
  · induction b with
    | gen n d c a z0 m sa =>
      refine ⟨?_, fun h => by cases h⟩
      obtain ⟨r, rfl, ok, hs⟩ := hc
      refine ⟨r, rfl, ok, ?_⟩
      rw [hs]
      congr 1
      by_cases hz : z % 2 = 1 <;> simp [hz]
    | rot ax θ =>
      cases ax <;> rcases Int.emod_two_eq_zero_or_one z with hz | hz <;> simp [conjBox, rotate, hz, Conj, Adj, dagger]
    | controlled u d ih =>
      obtain ⟨hd, hu, hsq⟩ := hg
      have := ih hc ha hu
      rcases Int.emod_two_eq_zero_or_one z with hz | hz
      · have e : conjBox z (controlled u d) = controlled u d := by simp [conjBox, rotate, hz]
        rw [e]; exact ⟨hc, ha⟩
      · have e : conjBox z (controlled u d) = controlled (conjBox z u) (-d) := by
          have := rotate_conjBox (.inl hu) hc (z := z)
          rw [conjBox, rotate, if_neg (by omega), this]
        rw [e]; exact this
    | daggered b ih =>
      have hg : b.Good := hg
      have e : conjBox z (daggered b) = daggered (conjBox z b) := by
        have := rotate_conjBox (.inl hg) hc (z := z)
        rw [conjBox, rotate, this]
      rw [e]; exact ih hc ha hg
    | scalar c => exact hc.elim
    | sqrt c => exact hc.elim
    | bit c => exact hc.elim
    | selfConj => exact ⟨hc, ha⟩
    | ket => exact ⟨hc, ha⟩
    | bra => exact ⟨hc, ha⟩
    | _ => exact hg.elim
  · rcases Int.emod_two_eq_zero_or_one z with hz | hz <;> simp [conjBox, rotate, hz, Conj, Adj]

/-- **C72 (again).** The result of a rotation can be rotated again: rotating there and back gives a circuit with the same values. -/
theorem C72_round_trip {d : Diagram QOb QBox} (h : ConjOK d) (ha : ∀ l ∈ d.layers, l.box.Adj) (z : Int) :
    ∃ d' d'' F, drotate z d = .ok d' ∧ drotate (-z) d' = .ok d'' ∧ d''.dom = d.dom ∧ d''.cod = d.cod ∧ pureEval d = .ok F ∧
      ∃ F'', pureEval d'' = .ok F'' ∧ ∀ x y, Bits d.dom.length x → Bits d.cod.length y → F'' (x ++ y) = F (x ++ y) := by
  obtain ⟨F, f1, f2⟩ := h.toPureOK.den.eval
  rcases Int.emod_two_eq_zero_or_one z with hz | hz
  · obtain ⟨d', e, hd⟩ := h.toPureOK.den.drotate_even h.conj hz
    have hc' : ∀ l ∈ d'.layers, l.box.Conj := by
      rw [drotate_even h hz] at e
      cases e
      intro l hl
      obtain ⟨l', hl', rfl⟩ := List.mem_map.1 hl
      exact (conj_conjBox (h.boxes l' hl') (h.conj l' hl') (ha l' hl') z).1
    obtain ⟨d'', e', hd'⟩ := hd.drotate_even hc' (z := -z) (by omega)
    obtain ⟨F'', g1, g2⟩ := hd'.eval
    exact ⟨d', d'', F, e, e', hd'.dom, hd'.cod, f1, F'', g1, fun x y hx hy => by rw [g2 x y hx hy, f2 x y hx hy]⟩
  · obtain ⟨d', e, hd⟩ := h.toPureOK.den.drotate_odd h.conj hz
    have hc' : ∀ l ∈ d'.layers, l.box.Conj := by
      rw [drotate_odd h hz] at e
      cases e
      intro l hl
      obtain ⟨l', hl', rfl⟩ := List.mem_map.1 hl
      exact (conj_conjBox (h.boxes l' hl') (h.conj l' hl') (ha l' hl') z).1
    obtain ⟨d'', e', hd'⟩ := hd.drotate_odd hc' (z := -z) (by omega)
    simp only [List.reverse_reverse, star_star] at hd'
    obtain ⟨F'', g1, g2⟩ := hd'.eval
    exact ⟨d', d'', F, e, e', hd'.dom, hd'.cod, f1, F'', g1, fun x y hx hy => by rw [g2 x y hx hy, f2 x y hx hy]⟩

theorem rotate_exists_CX (z : Int) : ∃ c, CX.rotate z = .ok c := by
  rcases Int.emod_two_eq_zero_or_one z with hz | hz
  · exact ⟨CX, by simp [CX, rotate, hz]⟩
  · exact ⟨controlled X (-1), by simp [CX, rotate, hz, X]⟩

/-- **C72 (scalars).** A circuit with a scalar cannot be rotated, not even by 0: `ValueError`. This includes the circuits of cups, caps and of the spider
with one leg. -/
theorem C72_refuted_scalar (z : Int) :
    (∀ c, drotate z (ofBox (scalar c)) = .error .valueError) ∧ (∀ c, drotate z (ofBox (sqrt c)) = .error .valueError) ∧
    (∃ d, generateCup [.qubit] [.qubit] = .ok d ∧ drotate z d = .error .valueError) ∧ (∀ b, drotate z (ofBox (bit b)) = .error .typeError) := by
  refine ⟨fun c => rfl, fun c => rfl, ⟨⟨[.qubit, .qubit], [], [⟨[], CX, []⟩, ⟨[], H, [.qubit]⟩, ⟨[.qubit], sqrt 2, [.qubit]⟩, ⟨[], bra false, [.qubit]⟩,
    ⟨[], bra false, []⟩]⟩, rfl, ?_⟩, fun b => rfl⟩
  obtain ⟨c, hc⟩ := rotate_exists_CX z
  simp only [drotate, List.mapM_cons, lrotate, hc, show H.rotate z = .ok H from rfl, show (sqrt 2).rotate z = .error .valueError from rfl]
  rfl

/-- **C72 (flags).** Rotating a plain box forgets that it is self-adjoint: the adjoint of the rotated gate `Y` is a new box. -/
theorem C72_refuted_flags : ∃ y, Y.rotate 1 = .ok y ∧ Y.dagger = Y ∧ y.dagger = daggered y := ⟨_, rfl, rfl, rfl⟩

/-! ## Cases that meet the hypotheses -/

theorem realSym_one {n : String} {p q r s : ℂ} {sa : Bool} (hp : star p = p) (hq : star q = q) (hr : star r = r) (hs : star s = s) :
    RealSym (selfConj n [.qubit] [.qubit] (some ⟨[2, 2], [p, q, r, s]⟩) sa) := by
  refine ⟨rfl, rfl, fun a ea x y hx hy => ?_⟩
  have e0 : (selfConj n [.qubit] [.qubit] (some ⟨[2, 2], [p, q, r, s]⟩) sa).array = .ok ⟨[2, 2], [p, q, r, s]⟩ := rfl
  cases ea.symm.trans e0
  obtain ⟨c, w, rfl, hc, hw⟩ := Bits.uncons (n := 0) hx
  obtain rfl := hw.eq_nil
  obtain ⟨c', w', rfl, hc', hw'⟩ := Bits.uncons (n := 0) hy
  obtain rfl := hw'.eq_nil
  interval_cases c <;> interval_cases c' <;> simp only [NdArray.get, ravel, List.cons_append, List.nil_append, List.reverse_cons, List.reverse_nil] <;>
    norm_num <;> first | exact hp.symm | exact hq.symm | exact hr.symm | exact hs.symm

/-- All constant gates of the module can be conjugated. -/
theorem conj_gates : H.Conj ∧ S.Conj ∧ T.Conj ∧ X.Conj ∧ Y.Conj ∧ Z.Conj ∧ CX.Conj ∧ CY.Conj ∧ CZ.Conj ∧ CCX.Conj ∧ CCZ.Conj := by
  have hH : H.Conj := realSym_one (by simp) (by simp) (by simp) (by simp)
  have hX : X.Conj := realSym_one (by simp) (by simp) (by simp) (by simp)
  have hZ : Z.Conj := realSym_one (by simp) (by simp) (by simp) (by simp)
  have hY : Y.Conj := ⟨_, rfl, rfl, rfl⟩
  exact ⟨hH, ⟨_, rfl, rfl, rfl⟩, ⟨_, rfl, rfl, rfl⟩, hX, hY, hZ, hX, hY, hZ, hX, hZ⟩

/-- `CX >> S @ Rx(θ)` and its conjugate. -/
example (θ : ℝ) : ∃ d, andThen (ofBox CX) (tensor (ofBox S) (ofBox (rot .x θ))) = .ok d ∧ ConjOK d ∧
    ∃ d', drotate 1 d = .ok d' ∧ d'.layers.map (fun l => (l.left, l.right)) = [([], []), ([.qubit], []), ([], [.qubit])] := by
  refine ⟨⟨qubits 2, qubits 2, [⟨[], CX, []⟩, ⟨[], S, [.qubit]⟩, ⟨[.qubit], rot .x θ, []⟩]⟩, rfl, ⟨⟨⟨rfl, rfl, rfl, rfl⟩, ?_⟩, ?_⟩, _, rfl, rfl⟩
  · simp only [List.mem_cons, List.not_mem_nil, or_false, forall_eq_or_imp, forall_eq]
    exact ⟨.inl good_CX, .inl ⟨_, rfl, rfl, fun _ => rfl, by decide⟩, .inl trivial⟩
  · simp only [List.mem_cons, List.not_mem_nil, or_false, forall_eq_or_imp, forall_eq]
    exact ⟨conj_gates.2.2.2.2.2.2.1, conj_gates.2.1, trivial⟩

end
end QBox
end Lambeq
