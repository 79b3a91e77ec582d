import Verif.Convert.DiscopyQuantum

namespace Lambeq
namespace Discopy
open Diagram
set_option linter.unusedSimpArgs false
set_option linter.unusedSectionVars false
noncomputable section

/-! ## Specification -/

/-- The gate with its data and a winding number, as a plain box; `rotate` makes these. -/
def turned (g : Gate) (z : Int) : QBox := match g with
  | .S => .gen "S" [.qubit] [.qubit] (some ⟨[2, 2], [1, 0, 0, Complex.I]⟩) z false false
  | .T => .gen "T" [.qubit] [.qubit] (some ⟨[2, 2], [1, 0, 0, Complex.exp (Complex.I * Real.pi / 4)]⟩) z false false
  | _ => .gen "Y" [.qubit] [.qubit] (some ⟨[2, 2], [0, Complex.I, -Complex.I, 0]⟩) z false false

/-- The boxes that can be converted: the named gates, S, T and Y rotated, S and T (rotated or not) daggered, rotations, scalars, kets, bras, swaps of qubits, discarding, measuring and encoding, and
controlled gates. -/
inductive Std : QBox → Prop
  | gate (g : Gate) : Std (gateBox g)
  | turned (g : Gate) (z : Int) : g = .S ∨ g = .T ∨ g = .Y → z = 0 ∨ z = 1 → Std (turned g z)
  | dag (g : Gate) (z : Int) : g = .S ∨ g = .T → z = 0 ∨ z = 1 → Std (.daggered (Discopy.turned g z))
  | rot (ax θ) : Std (.rot ax θ)
  | scalar (c) : Std (.scalar c)
  | sqrt (c) : Std (.sqrt c)
  | ket (b) : Std (.ket b)
  | bra (b) : Std (.bra b)
  | swap : Std (.swap .qubit .qubit)
  | discard : Std .discard
  | measure : Std .measure
  | encode : Std .encode
  | controlled {u d} : Std u → d ≠ 0 → Std (.controlled u d)

/-- The same box of DisCoPy. -/
inductive SameQBox : QBox → DQBox → Prop
  | gate (g : Gate) : SameQBox (gateBox g) (.gate g 0 false)
  | turned (g : Gate) (z : Int) : g = .S ∨ g = .T ∨ g = .Y → z = 0 ∨ z = 1 → SameQBox (Discopy.turned g z) (.gate g z false)
  | dag (g : Gate) (z : Int) : g = .S ∨ g = .T → z = 0 ∨ z = 1 → SameQBox (.daggered (Discopy.turned g z)) (.gate g z true)
  | rot (ax θ) : SameQBox (.rot ax θ) (.rot ax θ)
  | scalar (c) : SameQBox (.scalar c) (.scalar c)
  | sqrt (c) : SameQBox (.sqrt c) (.sqrt c)
  | ket (b) : SameQBox (.ket b) (.ket [b])
  | bra (b) : SameQBox (.bra b) (.bra [b])
  | swap : SameQBox (.swap .qubit .qubit) .swap
  | discard : SameQBox .discard .discard
  | measure : SameQBox .measure (.measure true)
  | encode : SameQBox .encode .encode
  | controlled {u d u'} : SameQBox u u' → d ≠ 0 → SameQBox (.controlled u d) (.controlled u' d)

/-- The same box, with the two flags of a plain box cleared (`is_mixed`, `self_adjoint`). Python's `==` does not see the difference (tensor.py:169-173). -/
def clearFlags : QBox → QBox
  | .gen n d c a z _ _ => .gen n d c a z false false
  | .controlled u d => .controlled (clearFlags u) d
  | b => b

/-! ## Proofs -/

def gname : Gate → String
  | .H => "H" | .S => "S" | .T => "T" | .X => "X" | .Y => "Y" | .Z => "Z"

theorem key_name (g : Gate) : ∃ d c a, key (gateBox g) = some (gname g, d, c, a) := by
  cases g <;> exact ⟨_, _, _, rfl⟩

theorem gname_inj {g h : Gate} (e : gname g = gname h) : g = h := by
  cases g <;> cases h <;> first | rfl | (exact absurd e (by decide))

theorem key_inj {g h : Gate} (e : key (gateBox g) = key (gateBox h)) : g = h := by
  obtain ⟨d, c, a, e1⟩ := key_name g
  obtain ⟨d', c', a', e2⟩ := key_name h
  rw [e1, e2] at e
  simp only [Option.some.injEq, Prod.mk.injEq] at e
  exact gname_inj e.1

theorem lookup_key {b : QBox} {g : Gate} (h : key b = key (gateBox g)) : lookupL2D b = some (.gate g 0 false) := by
  have hb : b ≠ .swap .qubit .qubit := by
    rintro rfl
    obtain ⟨d, c, a, e⟩ := key_name g
    rw [e] at h; cases h
  rw [lookupL2D, if_neg hb]
  have : ∀ l : List Gate, g ∈ l → l.find? (fun g' => @decide (key (gateBox g') = key b) (Classical.propDecidable _)) = some g := by
    intro l hl
    induction l with
    | nil => cases hl
    | cons x l ih =>
      by_cases hx : x = g
      · subst hx
        rw [List.find?_cons_of_pos (by simp [h])]
      · rw [List.find?_cons_of_neg]
        · exact ih (by rcases List.mem_cons.1 hl with rfl | hl; exact absurd rfl hx; exact hl)
        · simp only [decide_eq_true_eq]
          intro e
          exact hx (key_inj (by rw [e, h]))
  rw [this _ (by cases g <;> simp)]
  rfl

theorem Std.img {b : QBox} (h : Std b) : ∃ b', SameQBox b b' := by
  induction h with
  | controlled _ hd ih => obtain ⟨u', h⟩ := ih; exact ⟨_, .controlled h hd⟩
  | gate g => exact ⟨_, .gate g⟩
  | turned g z h1 h2 => exact ⟨_, .turned g z h1 h2⟩
  | dag g z h1 h2 => exact ⟨_, .dag g z h1 h2⟩
  | rot ax θ => exact ⟨_, .rot ax θ⟩
  | scalar c => exact ⟨_, .scalar c⟩
  | sqrt c => exact ⟨_, .sqrt c⟩
  | ket b => exact ⟨_, .ket b⟩
  | bra b => exact ⟨_, .bra b⟩
  | swap => exact ⟨_, .swap⟩
  | discard => exact ⟨_, .discard⟩
  | measure => exact ⟨_, .measure⟩
  | encode => exact ⟨_, .encode⟩

theorem l2d_turned {g : Gate} {z : Int} (h : g = .S ∨ g = .T ∨ g = .Y) (hz : z = 0 ∨ z = 1) : qboxL2D (turned g z) = .ok (.gate g z false) := by
  rcases h with rfl | rfl | rfl
  · rcases hz with rfl | rfl <;> (simp only [turned, qboxL2D, QBox.rotate, qz]; rw [lookup_key (g := .S) (by rfl)]; simp [DQBox.turn])
  · rcases hz with rfl | rfl <;> (simp only [turned, qboxL2D, QBox.rotate, qz]; rw [lookup_key (g := .T) (by rfl)]; simp [DQBox.turn])
  · rcases hz with rfl | rfl <;> (simp only [turned, qboxL2D, QBox.rotate, qz]; rw [lookup_key (g := .Y) (by rfl)]; simp [DQBox.turn])

theorem l2d_gate (g : Gate) : qboxL2D (gateBox g) = .ok (.gate g 0 false) := by
  cases g
  · simp only [gateBox, QBox.H, qboxL2D, QBox.rotate, qz]; rw [lookup_key (g := .H) (by rfl)]; rfl
  · simp only [gateBox, QBox.S, qboxL2D, QBox.rotate, qz]; rw [lookup_key (g := .S) (by rfl)]; rfl
  · simp only [gateBox, QBox.T, qboxL2D, QBox.rotate, qz]; rw [lookup_key (g := .T) (by rfl)]; rfl
  · simp only [gateBox, QBox.X, qboxL2D, QBox.rotate, qz]; rw [lookup_key (g := .X) (by rfl)]; rfl
  · simp only [gateBox, QBox.Y, qboxL2D, QBox.rotate, qz]; rw [lookup_key (g := .Y) (by rfl)]; rfl
  · simp only [gateBox, QBox.Z, qboxL2D, QBox.rotate, qz]; rw [lookup_key (g := .Z) (by rfl)]; rfl

theorem SameQBox.l2d {b : QBox} {b' : DQBox} (h : SameQBox b b') : qboxL2D b = .ok b' := by
  induction h with
  | gate g => exact l2d_gate g
  | turned g z h1 h2 => exact l2d_turned h1 h2
  | dag g z h1 h2 =>
    rw [qboxL2D, l2d_turned (by tauto) h2]
    rcases h1 with rfl | rfl <;> simp [DQBox.dagger]
  | controlled _ _ ih => rw [qboxL2D, ih]
  | swap =>
    simp only [qboxL2D, QBox.rotate, qz]
    simp [lookupL2D]
  | _ => rfl

theorem rotate_gate (g : Gate) (z : Int) (h : g = .S ∨ g = .T ∨ g = .Y) (hz : z = 0 ∨ z = 1) : (gateBox g).rotate z = .ok (turned g z) := by
  rcases h with rfl | rfl | rfl <;> rcases hz with rfl | rfl <;> rfl

theorem SameQBox.d2l {b : QBox} {b' : DQBox} (h : SameQBox b b') : qboxD2L b' = .ok (.inl (clearFlags b)) := by
  induction h with
  | gate g => cases g <;> rfl
  | turned g z h1 h2 =>
    rw [qboxD2L, rotate_gate g z h1 h2]
    rcases h1 with rfl | rfl | rfl <;> rfl
  | dag g z h1 h2 =>
    rw [qboxD2L, rotate_gate g z (by tauto) h2]
    rcases h1 with rfl | rfl <;> rfl
  | controlled _ hd ih =>
    rw [qboxD2L, ih]
    simp only [QBox.mkControlled, if_neg hd, clearFlags]
  | _ => rfl

theorem qtyL2D_append (a b : List QOb) : qtyL2D (a ++ b) = qtyL2D a ++ qtyL2D b := by simp [qtyL2D]
theorem qtyD2L_append (a b : List DQOb) : qtyD2L (a ++ b) = qtyD2L a ++ qtyD2L b := by simp [qtyD2L]
theorem qty_back (t : List QOb) : qtyD2L (qtyL2D t) = t := by
  rw [qtyD2L, qtyL2D, List.map_map]
  conv_rhs => rw [← List.map_id t]
  exact List.map_congr_left (fun o _ => by cases o <;> rfl)

theorem SameQBox.sig {b : QBox} {b' : DQBox} (h : SameQBox b b') : b'.sig.1 = qtyL2D b.dom ∧ b'.sig.2 = qtyL2D b.cod := by
  induction h with
  | gate g => cases g <;> exact ⟨rfl, rfl⟩
  | turned g z h1 h2 => rcases h1 with rfl | rfl | rfl <;> exact ⟨rfl, rfl⟩
  | dag g z h1 h2 => rcases h1 with rfl | rfl <;> exact ⟨rfl, rfl⟩
  | @controlled u d u' _ _ ih =>
    have h1 : u'.sig.1.length = u.sig.1.length := by rw [ih.1]; simp [qtyL2D, QBox.dom]
    constructor <;> simp [DQBox.sig, QBox.dom, QBox.cod, QBox.sig, QBox.qubits, qtyL2D, h1]
  | _ => exact ⟨rfl, rfl⟩

theorem clearFlags_sig (b : QBox) : (clearFlags b).sig = b.sig := by
  induction b with
  | controlled u d ih => simp [clearFlags, QBox.sig, ih]
  | _ => rfl

open Classical in
/-- The image of a box. -/
def qimage (b : QBox) : DQBox := if h : ∃ b', SameQBox b b' then h.choose else .other [] []
theorem qimage_img {b : QBox} (h : Std b) : SameQBox b (qimage b) := by
  rw [qimage, dif_pos h.img]; exact h.img.choose_spec

end
end Discopy
end Lambeq
