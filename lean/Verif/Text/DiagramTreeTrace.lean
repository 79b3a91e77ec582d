import Verif.Text.DiagramTree
import Verif.Grammar.PregroupWiring
import Verif.Grammar.DiagramProps

/-!
# Following wires (C102)
-/

namespace Lambeq
namespace DTree
open Diagram GDiagram
set_option linter.unusedSimpArgs false
set_option linter.unusedVariables false

/-! ## Specification -/

/-- Where the wire at place `p` above a cup or a swap is below it: nowhere if it ends in the cup. -/
def down (l : GLayer) (p : Nat) : Option Nat :=
  match l.box with
  | .cup _ _ _ => if p < l.left.length then some p else if p < l.left.length + 2 then none else some (p - 2)
  | _ => if p = l.left.length then some (l.left.length + 1) else if p = l.left.length + 1 then some l.left.length else some p

/-- Where a wire is below several layers. -/
def follow : List GLayer → Nat → Option Nat
  | [], p => some p
  | l :: ls, p => (down l p).bind (follow ls)

def isWord : Box → Bool
  | .word _ _ _ => true
  | _ => false
def isCup : Box → Bool
  | .cup _ _ _ => true
  | _ => false
def isSwap : Box → Bool
  | .swap _ _ => true
  | _ => false
def name : Box → String
  | .word n _ _ => n
  | _ => ""

/-! ## Proof -/

theorem follow_append (a b : List GLayer) (p : Nat) : follow (a ++ b) p = (follow a p).bind (follow b) := by
  induction a generalizing p with
  | nil => rfl
  | cons l a ih =>
    simp only [List.cons_append, follow]
    cases down l p with
    | none => rfl
    | some q => exact ih q

theorem follow_snoc (a : List GLayer) (l : GLayer) (p : Nat) : follow (a ++ [l]) p = (follow a p).bind (down l) := by
  rw [follow_append]
  congr 1
  funext q
  simp only [follow]
  cases down l q <;> rfl

theorem trace_append (a b : List GLayer) (li : Nat) (s : Trace) :
    trace li (a ++ b) s = match trace li a s with | .error e => .error e | .ok s => trace (li + a.length) b s := by
  induction a generalizing li s with
  | nil => rfl
  | cons l a ih =>
    simp only [List.cons_append, trace]
    cases h : s.step li l with
    | error e => rfl
    | ok s' => simp only; rw [ih, List.length_cons, show li + 1 + a.length = li + (a.length + 1) by omega]

theorem trace_words (wl : List GLayer) (hw : ∀ l ∈ wl, isWord l.box = true) (li : Nat) (s : Trace) :
    trace li wl s = .ok ⟨s.owners ++ ((wl.zipIdx li).map (fun x => List.replicate x.1.box.cod.length (name x.1.box, x.2))).flatten, s.types ++ (wl.map (fun l => l.box.cod)).flatten, s.live, s.joins,
      s.words ++ (wl.zipIdx li).map (fun x => (name x.1.box, x.1.box.cod, x.2))⟩ := by
  induction wl generalizing li s with
  | nil => simp [trace]
  | cons l wl ih =>
    have hl := hw l (by simp)
    have hr := fun x hx => hw x (List.mem_cons_of_mem _ hx)
    obtain ⟨L, b, R⟩ := l
    cases b <;> simp [isWord] at hl
    rename_i n c z
    simp only [trace, Trace.step, ih hr]
    simp [name, Box.cod, List.append_assoc]

/-- What is known about the wires below the layers `pre`, of types `ty`. -/
structure Inv (types : Ty) (pre : List GLayer) (live : List Nat) (ty : Ty) : Prop where
  typed : ty.map some = live.map (fun i => types[i]?)
  at_ : ∀ p i, live[p]? = some i ↔ i < types.length ∧ follow pre i = some p

theorem Inv.length {types : Ty} {pre : List GLayer} {live : List Nat} {ty : Ty} (h : Inv types pre live ty) : live.length = ty.length := by
  have := congrArg List.length h.typed
  simpa using this.symm

theorem cut_eq (A B : List Nat) (a b : Nat) : cut (A ++ a :: b :: B) A.length B.length = (A, [a, b], B) := by
  unfold cut
  have e : (A ++ a :: b :: B).length - B.length = A.length + 2 := by simp; omega
  split
  · rw [e]
    refine Prod.ext (by simp) (Prod.ext ?_ ?_)
    · simp only
      rw [show A ++ a :: b :: B = (A ++ [a, b]) ++ B by simp, List.take_left' (by simp)]
      simp
    · simp only
      rw [show A ++ a :: b :: B = (A ++ [a, b]) ++ B by simp, List.drop_left' (by simp)]
  · rename_i h
    have : B = [] := by simpa using h
    subst this
    simp

theorem split_live {live : List Nat} {L R : Nat} (h : live.length = L + 2 + R) : ∃ A B a b, live = A ++ a :: b :: B ∧ A.length = L ∧ B.length = R := by
  refine ⟨live.take L, live.drop (L + 2), live[L]'(by omega), live[L + 1]'(by omega), ?_, by simp; omega, by simp; omega⟩
  conv_lhs => rw [← List.take_append_drop L live]
  congr 1
  rw [List.drop_eq_getElem_cons (by omega), List.drop_eq_getElem_cons (by omega)]

/-- The wires of a state, with the reset for an empty list, are the wires below the layers so far. -/
theorem getElem?_middle (A B : List Nat) (a b : Nat) (p : Nat) : (A ++ a :: b :: B)[p]? = if p < A.length then A[p]? else if p = A.length then some a else if p = A.length + 1 then some b else B[p - (A.length + 2)]? := by
  rw [List.getElem?_append]
  split
  · rfl
  · rename_i h
    split
    · rename_i h2; simp [h2]
    · split
      · rename_i h3; simp [h3]
      · rename_i h2 h3
        rw [show p - A.length = (p - (A.length + 2)) + 1 + 1 by omega]
        simp

theorem Inv.step {types : Ty} {pre : List GLayer} {A B : List Nat} {a b : Nat} {l : GLayer} (h : Inv types pre (A ++ a :: b :: B) l.dom) (hl : l.left.length = A.length) (hr : l.right.length = B.length)
    (hb : isCup l.box = true ∨ isSwap l.box = true) :
    Inv types (pre ++ [l]) (A ++ (if isCup l.box then [] else [b, a]) ++ B) l.cod ∧ l.box.dom.map some = [types[a]?, types[b]?] := by
  obtain ⟨L, bx, R⟩ := l
  simp only at hl hr hb ⊢
  have ht := h.typed
  have hlive := h.at_
  have hsp : L.map some = A.map (fun i => types[i]?) ∧ bx.dom.map some = [types[a]?, types[b]?] ∧ R.map some = B.map (fun i => types[i]?) := by
    have hd : bx.dom.length = 2 := by
      cases bx <;> simp [isCup, isSwap] at hb <;> simp [Box.dom]
    simp only [Layer.dom, List.map_append, List.map_cons, List.append_assoc] at ht
    obtain ⟨h1, h2⟩ := List.append_inj ht (by simp [hl])
    rw [show types[a]? :: types[b]? :: B.map (fun i => types[i]?) = [types[a]?, types[b]?] ++ B.map (fun i => types[i]?) from rfl] at h2
    obtain ⟨h3, h4⟩ := List.append_inj h2 (by simpa using hd)
    exact ⟨h1, h3, h4⟩
  refine ⟨⟨?_, ?_⟩, hsp.2.1⟩
  · rcases bx with _ | _ | ⟨x, y, z⟩ | _ | ⟨x, y⟩ | _ | _ <;> simp [isCup, isSwap] at hb
    · simp [Layer.cod, Box.cod, isCup, hsp.1, hsp.2.2]
    · have := hsp.2.1
      simp only [BoxSig.dom, Box.dom, List.map_cons, List.map_nil, List.cons.injEq, and_true] at this
      simp [Layer.cod, Box.cod, isCup, hsp.1, hsp.2.2, this.1, this.2]
  · intro p i
    rw [follow_snoc]
    have key : ∀ q : Nat, (i < types.length ∧ follow pre i = some q) ↔ (A ++ a :: b :: B)[q]? = some i := fun q => (hlive q i).symm
    have hbind : (i < types.length ∧ (follow pre i).bind (down ⟨L, bx, R⟩) = some p) ↔ ∃ q, (A ++ a :: b :: B)[q]? = some i ∧ down ⟨L, bx, R⟩ q = some p := by
      simp only [Option.bind_eq_some_iff]
      constructor
      · rintro ⟨h1, q, h2, h3⟩; exact ⟨q, (key q).1 ⟨h1, h2⟩, h3⟩
      · rintro ⟨q, h1, h2⟩; obtain ⟨h3, h4⟩ := (key q).2 h1; exact ⟨h3, q, h4, h2⟩
    rw [hbind]
    simp only [getElem?_middle]
    rcases bx with _ | _ | ⟨x, y, z⟩ | _ | ⟨x, y⟩ | _ | _ <;> simp [isCup, isSwap] at hb
    · simp only [isCup, if_true, List.append_nil, down, hl]
      constructor
      · intro hp
        rw [List.getElem?_append] at hp
        split at hp
        · exact ⟨p, by rw [if_pos ‹_›]; exact hp, by rw [if_pos ‹_›]⟩
        · refine ⟨p + 2, ?_, ?_⟩
          · rw [if_neg (by omega), if_neg (by omega), if_neg (by omega), show p + 2 - (A.length + 2) = p - A.length by omega]; exact hp
          · rw [if_neg (by omega), if_neg (by omega)]; simp
      · rintro ⟨q, h1, h2⟩
        rw [List.getElem?_append]
        split at h2
        · rename_i hq
          rw [if_pos hq] at h1
          cases h2
          rw [if_pos hq]; exact h1
        · split at h2
          · cases h2
          · cases h2
            rw [if_neg (by omega), if_neg (by omega), if_neg (by omega)] at h1
            rw [if_neg (by omega), show q - 2 - A.length = q - (A.length + 2) by omega]; exact h1
    · simp only [isCup, Bool.false_eq_true, if_false, down, hl]
      rw [show A ++ [b, a] ++ B = A ++ b :: a :: B by simp, getElem?_middle]
      constructor
      · intro hp
        by_cases h1 : p < A.length
        · rw [if_pos h1] at hp
          exact ⟨p, by rw [if_pos h1]; exact hp, by rw [if_neg (by omega), if_neg (by omega)]⟩
        · rw [if_neg h1] at hp
          by_cases h2 : p = A.length
          · rw [if_pos h2] at hp
            refine ⟨A.length + 1, ?_, ?_⟩
            · rw [if_neg (by omega), if_neg (by omega), if_pos rfl]; exact hp
            · rw [if_neg (by omega), if_pos rfl, h2]
          · rw [if_neg h2] at hp
            by_cases h3 : p = A.length + 1
            · rw [if_pos h3] at hp
              refine ⟨A.length, ?_, ?_⟩
              · rw [if_neg (by omega), if_pos rfl]; exact hp
              · rw [if_pos rfl, h3]
            · rw [if_neg h3] at hp
              refine ⟨p, ?_, ?_⟩
              · rw [if_neg h1, if_neg h2, if_neg h3]; exact hp
              · rw [if_neg h2, if_neg h3]
      · rintro ⟨q, h1, h2⟩
        by_cases e1 : q = A.length
        · rw [if_pos e1] at h2
          cases h2
          rw [if_neg (by omega), if_pos e1] at h1
          rw [if_neg (by omega), if_neg (by omega), if_pos rfl]; exact h1
        · rw [if_neg e1] at h2
          by_cases e2 : q = A.length + 1
          · rw [if_pos e2] at h2
            cases h2
            rw [if_neg (by omega), if_neg e1, if_pos e2] at h1
            rw [if_neg (by omega), if_pos rfl]; exact h1
          · rw [if_neg e2] at h2
            cases h2
            by_cases e3 : p < A.length
            · rw [if_pos e3] at h1 ⊢; exact h1
            · rw [if_neg e3, if_neg e1, if_neg e2] at h1
              rw [if_neg e3, if_neg e1, if_neg e2]; exact h1

/-- One layer of the loop. -/
theorem step_ok {s : Trace} {types : Ty} {pre : List GLayer} {l : GLayer} {li : Nat} (hs : s.types = types) (h : Inv types pre s.wires l.dom) (hb : isCup l.box = true ∨ isSwap l.box = true) :
    ∃ a b live', s.step li l = .ok ⟨s.owners, types, live', s.joins ++ [(isCup l.box, a, b)], s.words⟩ ∧ Inv types (pre ++ [l]) live' l.cod ∧ a < types.length ∧ b < types.length ∧
      follow pre a = some l.left.length ∧ follow pre b = some (l.left.length + 1) ∧ l.box.dom.map some = [types[a]?, types[b]?] := by
  have hd : l.box.dom.length = 2 := by
    obtain ⟨L, bx, R⟩ := l
    cases bx <;> simp [isCup, isSwap] at hb <;> simp [Box.dom]
  have hlen := h.length
  have hdl : l.dom.length = l.left.length + 2 + l.right.length := by
    have : (BoxSig.dom l.box : List Ob).length = 2 := hd
    simp only [Layer.dom, List.length_append, this]
  obtain ⟨A, B, a, b, hw, hA, hB⟩ := split_live (L := l.left.length) (R := l.right.length) (by rw [hlen, hdl])
  rw [hw] at h
  obtain ⟨h1, h2⟩ := h.step hA.symm hB.symm hb
  have ha := (h.at_ A.length a).1 (by simp)
  have hb' := (h.at_ (A.length + 1) b).1 (by simp)
  refine ⟨a, b, _, ?_, h1, ha.1, hb'.1, by rw [← hA]; exact ha.2, by rw [← hA]; exact hb'.2, h2⟩
  have hj : ∀ cup, s.join cup l.left.length l.right.length = .ok ⟨s.owners, types, A ++ (if cup then [] else [b, a]) ++ B, s.joins ++ [(cup, a, b)], s.words⟩ := by
    intro cup
    unfold Trace.join
    rw [hw, ← hA, ← hB, cut_eq, ← hs]
  obtain ⟨L, bx, R⟩ := l
  rcases bx with _ | _ | ⟨x, y, z⟩ | _ | ⟨x, y⟩ | _ | _ <;> simp [isCup, isSwap] at hb
  · exact hj true
  · exact hj false

theorem chain_append {a c : List Ob} {x y : List GLayer} (h : Chain a (x ++ y) c) : ∃ b, Chain a x b ∧ Chain b y c := by
  induction x generalizing a with
  | nil => exact ⟨a, rfl, h⟩
  | cons l x ih =>
    obtain ⟨h1, h2⟩ := h
    obtain ⟨b, h3, h4⟩ := ih h2
    exact ⟨b, ⟨h1, h3⟩, h4⟩

theorem follow_nil_inv (types : Ty) : Inv types [] (List.range types.length) types := by
  refine ⟨?_, ?_⟩
  · apply List.ext_getElem?
    intro i
    rcases Nat.lt_or_ge i types.length with h | h
    · simp [h]
    · simp [h]
  · intro p i
    simp only [follow, Option.some.injEq, List.getElem?_eq_some_iff, List.length_range, List.getElem_range]
    constructor
    · rintro ⟨h1, h2⟩; exact ⟨by omega, by omega⟩
    · rintro ⟨h1, h2⟩; exact ⟨by omega, by omega⟩

/-- The loop over cups and swaps. -/
theorem trace_joins (ls : List GLayer) : ∀ (pre : List GLayer) (li : Nat) (s : Trace) (types ty c : Ty), s.types = types → Inv types pre s.wires ty → Chain ty ls c → (∀ l ∈ ls, isCup l.box = true ∨ isSwap l.box = true) →
    ∃ s', trace li ls s = .ok s' ∧ s'.owners = s.owners ∧ s'.types = types ∧ s'.words = s.words ∧ ∃ js, s'.joins = s.joins ++ js ∧ js.length = ls.length ∧ (ls ≠ [] → Inv types (pre ++ ls) s'.live c) ∧
      ∀ k l, ls[k]? = some l → ∃ a b, js[k]? = some (isCup l.box, a, b) ∧ a < types.length ∧ b < types.length ∧ follow (pre ++ ls.take k) a = some l.left.length ∧
        follow (pre ++ ls.take k) b = some (l.left.length + 1) ∧ l.box.dom.map some = [types[a]?, types[b]?] := by
  induction ls with
  | nil =>
    intro pre li s types ty c hs _ _ _
    exact ⟨s, rfl, rfl, hs, rfl, [], by simp, rfl, by simp, by simp⟩
  | cons l ls ih =>
    intro pre li s types ty c hs hi hc hb
    obtain ⟨h1, h2⟩ := hc
    rw [← h1] at hi
    obtain ⟨a, b, live', e, hinv, ha, hb1, f1, f2, f3⟩ := step_ok (li := li) hs hi (hb l (by simp))
    simp only [trace, e]
    cases ls with
    | nil =>
      refine ⟨_, rfl, rfl, rfl, rfl, [(isCup l.box, a, b)], rfl, rfl, fun _ => ?_, ?_⟩
      · have : l.cod = c := h2
        rw [← this]; exact hinv
      · intro k l' hk
        rcases k with _ | k
        · simp only [List.getElem?_cons_zero, Option.some.injEq] at hk
          subst hk
          exact ⟨a, b, rfl, ha, hb1, by simpa using f1, by simpa using f2, f3⟩
        · simp at hk
    | cons l2 ls2 =>
      have hw : (⟨s.owners, types, live', s.joins ++ [(isCup l.box, a, b)], s.words⟩ : Trace).wires = live' := by
        unfold Trace.wires
        rw [if_neg]
        intro h0
        have hl := hinv.length
        simp only at h0
        rw [h0] at hl
        have h3 : l2.dom = l.cod := h2.1
        have hd : l2.box.dom.length = 2 := by
          have := hb l2 (by simp)
          obtain ⟨L, bx, R⟩ := l2
          cases bx <;> simp [isCup, isSwap] at this <;> simp [Box.dom]
        have hd' : (BoxSig.dom l2.box : List Ob).length = 2 := hd
        have := congrArg List.length h3
        simp only [List.length_nil] at hl
        rw [← hl] at this
        simp only [Layer.dom, List.length_append, hd'] at this
        omega
      obtain ⟨s', g1, g2, g3, g4, js, g5, g6, g7, g8⟩ := ih (pre ++ [l]) (li + 1) _ types l.cod c rfl (by rw [hw]; exact hinv) h2 (fun x hx => hb x (by simp [hx]))
      refine ⟨s', g1, g2, g3, g4, (isCup l.box, a, b) :: js, by rw [g5]; simp, by simp [g6], ?_, ?_⟩
      · intro _
        have := g7 (by simp)
        rwa [List.append_assoc] at this
      · intro k l' hk
        rcases k with _ | k
        · simp only [List.getElem?_cons_zero, Option.some.injEq] at hk
          subst hk
          exact ⟨a, b, rfl, ha, hb1, by simpa using f1, by simpa using f2, f3⟩
        · simp only [List.getElem?_cons_succ] at hk ⊢
          obtain ⟨a', b', k1, k2, k3, k4, k5, k6⟩ := g8 k l' hk
          rw [List.append_assoc] at k4 k5
          exact ⟨a', b', k1, k2, k3, by simpa using k4, by simpa using k5, k6⟩

/-- A pregroup diagram starts with words and goes on with cups and swaps. -/
theorem isPregroupLoop_split (ls : List GLayer) : isPregroupLoop true ls = true → ∃ wl rest, ls = wl ++ rest ∧ (∀ l ∈ wl, isWord l.box = true ∧ l.right = []) ∧ ∀ l ∈ rest, isCup l.box = true ∨ isSwap l.box = true := by
  have hf : ∀ ls : List GLayer, isPregroupLoop false ls = true → ∀ l ∈ ls, isCup l.box = true ∨ isSwap l.box = true := by
    intro ls
    induction ls with
    | nil => simp
    | cons l ls ih =>
      intro h
      obtain ⟨L, bx, R⟩ := l
      cases bx <;> simp [isPregroupLoop] at h
      · intro x hx
        rcases List.mem_cons.1 hx with rfl | hx
        · exact .inl rfl
        · exact ih h x hx
      · intro x hx
        rcases List.mem_cons.1 hx with rfl | hx
        · exact .inr rfl
        · exact ih h x hx
  induction ls with
  | nil => intro _; exact ⟨[], [], rfl, by simp, by simp⟩
  | cons l ls ih =>
    intro h
    obtain ⟨L, bx, R⟩ := l
    cases bx <;> simp [isPregroupLoop] at h
    · obtain ⟨wl, rest, h1, h2, h3⟩ := ih h.2
      refine ⟨⟨L, .word _ _ _, R⟩ :: wl, rest, by rw [h1]; rfl, ?_, h3⟩
      intro x hx
      rcases List.mem_cons.1 hx with rfl | hx
      · exact ⟨rfl, h.1⟩
      · exact h2 x hx
    · refine ⟨[], _, rfl, by simp, ?_⟩
      intro x hx
      rcases List.mem_cons.1 hx with rfl | hx
      · exact .inl rfl
      · exact hf ls h x hx
    · refine ⟨[], _, rfl, by simp, ?_⟩
      intro x hx
      rcases List.mem_cons.1 hx with rfl | hx
      · exact .inr rfl
      · exact hf ls h x hx

theorem chain_words (wl : List GLayer) (a b : List Ob) (hw : ∀ l ∈ wl, isWord l.box = true ∧ l.right = []) (h : Chain a wl b) : b = a ++ (wl.map (fun l => l.box.cod)).flatten := by
  induction wl generalizing a with
  | nil => simpa using (show a = b from h).symm
  | cons l wl ih =>
    obtain ⟨h1, h2⟩ := h
    have := ih l.cod (fun x hx => hw x (by simp [hx])) h2
    obtain ⟨hl, hr⟩ := hw l (by simp)
    obtain ⟨L, bx, R⟩ := l
    cases bx <;> simp [isWord] at hl
    simp only at hr
    subst hr
    simp only [Layer.dom, BoxSig.dom, Box.dom, List.append_nil] at h1
    subst h1
    rw [this]
    simp [Layer.cod, BoxSig.cod]

/-- **C102 (tracing).** Let `d` be a well-typed pregroup diagram. The loop of `diagram2tree` does not fail on it. It finds the type of every wire under the words and the word that it comes from;
for every cup and every swap the two wires that meet there, which are wires of the types of its inputs that, when followed down, arrive at its left and its right input; and, if there is a cup or swap, for
every output the wire that arrives there. -/
theorem C102_trace (d : GDiagram) (hw : d.WT) (hp : isPregroup d = true) : ∃ wl ls s, d.layers = wl ++ ls ∧ (∀ l ∈ wl, isWord l.box = true) ∧ (∀ l ∈ ls, isCup l.box = true ∨ isSwap l.box = true) ∧
    trace 0 d.layers ⟨[], [], [], [], []⟩ = .ok s ∧ s.types = (wl.map (fun l => l.box.cod)).flatten ∧
    s.owners = (wl.zipIdx.map (fun x => List.replicate x.1.box.cod.length (name x.1.box, x.2))).flatten ∧
    s.words = wl.zipIdx.map (fun x => (name x.1.box, x.1.box.cod, x.2)) ∧
    s.joins.length = ls.length ∧
    (∀ k l, ls[k]? = some l → ∃ a b, s.joins[k]? = some (isCup l.box, a, b) ∧ a < s.types.length ∧ b < s.types.length ∧ follow (ls.take k) a = some l.left.length ∧
      follow (ls.take k) b = some (l.left.length + 1) ∧ l.box.dom.map some = [s.types[a]?, s.types[b]?]) ∧
    (ls ≠ [] → d.cod.map some = s.live.map (fun i => s.types[i]?) ∧ ∀ p i, s.live[p]? = some i ↔ i < s.types.length ∧ follow ls i = some p) := by
  unfold isPregroup at hp
  split at hp
  · cases hp
  · rename_i hdom
    have hdom : d.dom = [] := by simpa using hdom
    obtain ⟨wl, ls, h1, h2, h3⟩ := isPregroupLoop_split _ hp
    have hc : Chain d.dom d.layers d.cod := hw
    rw [h1, hdom] at hc
    obtain ⟨b, c1, c2⟩ := chain_append hc
    have hb := chain_words wl [] b h2 c1
    rw [List.nil_append] at hb
    subst hb
    have ht := trace_words wl (fun l hl => (h2 l hl).1) 0 ⟨[], [], [], [], []⟩
    simp only [List.nil_append] at ht
    obtain ⟨s', g1, g2, g3, g4, js, g5, g6, g7, g8⟩ := trace_joins ls [] (0 + wl.length) ⟨(wl.zipIdx.map (fun x => List.replicate x.1.box.cod.length (name x.1.box, x.2))).flatten,
        (wl.map (fun l => l.box.cod)).flatten, [], [], wl.zipIdx.map (fun x => (name x.1.box, x.1.box.cod, x.2))⟩ (wl.map (fun l => l.box.cod)).flatten _ d.cod rfl
      (by unfold Trace.wires; rw [if_pos rfl]; exact follow_nil_inv _) c2 h3
    refine ⟨wl, ls, s', h1, fun l hl => (h2 l hl).1, h3, ?_, g3, g2, g4, ?_, ?_, ?_⟩
    · rw [h1, trace_append, ht]; exact g1
    · rw [g5]; simpa using g6
    · rw [g3, g5]; simpa using g8
    · intro hne
      rw [g3]
      obtain ⟨t1, t2⟩ := g7 hne
      exact ⟨t1, by simpa using t2⟩

end DTree
end Lambeq
