import Verif.Convert.DiscopyTheorems
import Verif.Convert.DiscopyQuantumTheorems

/-! # Conversion to and from DisCoPy: frames, and kets and bras of several bits (C107) -/

namespace Lambeq
namespace Discopy
open Diagram
noncomputable section

/-- A frame becomes a box with its name, types and winding number; the components are dropped. -/
theorem C107_frames (n : String) (d c : Ty) (cs : List Comp) (z : Int) :
    ∃ D C, frameL2D (.frame n d c cs z) = .ok (.box n D C z false) ∧ D = d.map obL2D ∧ C = c.map obL2D := by
  have h : ∀ t : Ty, tyL2D t = t.map obL2D := by
    intro t
    induction t with
    | nil => rfl
    | cons o t ih => simp [tyL2D, ih]
  exact ⟨_, _, rfl, h d, h c⟩

theorem row_layers (f : Bool → QBox) (p q : List QOb) (hd : ∀ b, (f b).dom = p) (hc : ∀ b, (f b).cod = q) : ∀ bs : List Bool,
    (tensorN (id [] :: bs.map (fun b => ofBox (f b))) : Diagram QOb QBox).dom = (List.replicate bs.length p).flatten ∧
    (tensorN (id [] :: bs.map (fun b => ofBox (f b))) : Diagram QOb QBox).cod = (List.replicate bs.length q).flatten ∧
    (tensorN (id [] :: bs.map (fun b => ofBox (f b))) : Diagram QOb QBox).boxes = bs.map f ∧
    (tensorN (id [] :: bs.map (fun b => ofBox (f b))) : Diagram QOb QBox).offsets = (List.range bs.length).map (· * q.length) := by
  intro bs
  rw [tensorN_eq_foldr, List.foldr_cons]
  have e : ∀ D : Diagram QOb QBox, tensor (id []) D = D := by
    intro D
    ext1 <;> simp [tensor_eq, Diagram.id, map_extend_nil]
  rw [e]
  induction bs with
  | nil => exact ⟨rfl, rfl, rfl, rfl⟩
  | cons b bs ih =>
    obtain ⟨h1, h2, h3, h4⟩ := ih
    rw [List.map_cons, List.foldr_cons]
    generalize List.foldr tensor (Diagram.id []) (List.map (fun b => ofBox (f b)) bs) = D at *
    have hb : BoxSig.dom (f b) = p := hd b
    have hb2 : BoxSig.cod (f b) = q := hc b
    refine ⟨?_, ?_, ?_, ?_⟩
    · rw [tensor_eq]; simp [ofBox, hb, h1, List.replicate_succ]
    · rw [tensor_eq]; simp [ofBox, hb2, h2, List.replicate_succ]
    · simp only [boxes] at h3 ⊢
      rw [tensor_eq]
      simp only [List.map_append, List.map_map, List.map_cons]
      rw [← h3]
      simp [ofBox, Layer.extend, Function.comp_def]
    · simp only [offsets] at h4 ⊢
      rw [tensor_eq]
      have h5 : List.map (fun l : Layer QOb QBox => q.length + l.left.length) D.layers = (List.range bs.length).map (fun i => q.length + i * q.length) := by
        have := congrArg (List.map (fun k => q.length + k)) h4
        simpa [List.map_map, Function.comp_def] using this
      simp only [List.map_append, List.map_map, List.length_cons, List.range_succ_eq_map]
      simp only [ofBox, Layer.extend, Function.comp_def, hb2, List.map_cons, List.map_nil, List.nil_append, List.length_nil, List.length_append, h5, Nat.zero_mul, List.map_map,
        List.singleton_append, List.cons.injEq, true_and]
      apply List.map_congr_left
      intro i _
      rw [Nat.succ_mul, Nat.add_comm]

/-- A ket of DisCoPy becomes one ket of lambeq for each of its bits, in order, each next to the one before; a ket of one bit is a box. Bras likewise. Only destructive measurements are converted. -/
theorem C107_bits (bs : List Bool) :
    (∃ D, qAsDiagram (qboxD2L (.ket bs)) = .ok D ∧ D.dom = [] ∧ D.cod = List.replicate bs.length .qubit ∧ D.boxes = bs.map QBox.ket ∧ D.offsets = List.range bs.length) ∧
    (∃ D, qAsDiagram (qboxD2L (.bra bs)) = .ok D ∧ D.dom = List.replicate bs.length .qubit ∧ D.cod = [] ∧ D.boxes = bs.map QBox.bra ∧ D.offsets = List.replicate bs.length 0) ∧
    qboxD2L (.measure true) = .ok (.inl .measure) ∧ qboxD2L (.measure false) = .error .notImplementedError := by
  have hr : ∀ (n : Nat) (o : QOb), (List.replicate n [o]).flatten = List.replicate n o := by
    intro n o
    induction n with
    | zero => rfl
    | succ n ih => simp [List.replicate_succ, ih]
  have hn : ∀ n : Nat, (List.replicate n ([] : List QOb)).flatten = [] := by
    intro n
    induction n with
    | zero => rfl
    | succ n ih => simp [List.replicate_succ]
  have hz : ∀ n : Nat, (List.range n).map (fun i => i * ([] : List QOb).length) = List.replicate n 0 := by
    intro n; simp [List.map_const']
  have h1 := row_layers QBox.ket [] [.qubit] (fun _ => rfl) (fun _ => rfl) bs
  have h2 := row_layers QBox.bra [.qubit] [] (fun _ => rfl) (fun _ => rfl) bs
  rw [hr, hn] at h1 h2
  rw [hz] at h2
  simp only [List.length_singleton, Nat.mul_one, List.map_id'] at h1
  refine ⟨?_, ?_, rfl, rfl⟩
  · match bs, h1 with
    | [], h1 => exact ⟨_, rfl, h1⟩
    | [b], _ => exact ⟨_, rfl, rfl, rfl, rfl, rfl⟩
    | b :: c :: bs, h1 => exact ⟨_, rfl, h1⟩
  · match bs, h2 with
    | [], h2 => exact ⟨_, rfl, h2⟩
    | [b], _ => exact ⟨_, rfl, rfl, rfl, rfl, rfl⟩
    | b :: c :: bs, h2 => exact ⟨_, rfl, h2⟩

end
end Discopy
end Lambeq
