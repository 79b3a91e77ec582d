import Verif.Drawing.TextPrinter
import Mathlib.Data.List.Basic
import Mathlib.Tactic.Tauto

namespace Lambeq
namespace TextPrint
set_option linter.unusedSimpArgs false

/-! ## Specification: which wires are connected -/

/-- The wires after a cup (the two wires end) or a swap. -/
def after (S : List Nat) (m : Morph) : List Nat := if m.cup then S.filter (fun x => decide (x ≠ m.start) && decide (x ≠ m.stop)) else S

/-- What is on each column after a morphism. -/
def moved (f : Nat → Nat) (m : Morph) : Nat → Nat := if m.cup then f else fun x => if x = m.start then f m.stop else if x = m.stop then f m.start else f x

/-- The columns that remain. -/
def left : List Nat → List Morph → List Nat
  | S, [] => S
  | S, m :: ms => left (after S m) ms

/-- What is on the columns at the end. -/
def final : (Nat → Nat) → List Morph → (Nat → Nat)
  | f, [] => f
  | f, m :: ms => final (moved f m) ms

/-- Which strands the cups join, in order. -/
def joins : (Nat → Nat) → List Morph → List (Nat × Nat)
  | _, [] => []
  | f, m :: ms => if m.cup then (f m.start, f m.stop) :: joins f ms else joins (moved f m) ms

/-- Both columns are there, with no other column between them. -/
def Adj (S : List Nat) (m : Morph) : Prop := m.start ∈ S ∧ m.stop ∈ S ∧ m.start < m.stop ∧ ∀ x ∈ S, x ≤ m.start ∨ m.stop ≤ x

/-- Every morphism acts on neighbouring wires. -/
def Valid : List Nat → List Morph → Prop
  | _, [] => True
  | S, m :: ms => Adj S m ∧ Valid (after S m) ms

def Disj (m n : Morph) : Prop := m.stop < n.start ∨ n.stop < m.start

/-! ## Exchange -/

structure Eqv (S : List Nat) (X Y : List Morph) : Prop where
  valid : Valid S X → Valid S Y
  left : left S X = left S Y
  final : ∀ f, final f X = final f Y
  joins : ∀ f, (joins f X).Perm (joins f Y)

theorem Eqv.refl (S : List Nat) (X : List Morph) : Eqv S X X := ⟨id, rfl, fun _ => rfl, fun _ => List.Perm.refl _⟩

theorem Eqv.trans {S : List Nat} {X Y Z : List Morph} (h : Eqv S X Y) (g : Eqv S Y Z) : Eqv S X Z :=
  ⟨fun v => g.valid (h.valid v), h.left.trans g.left, fun f => (h.final f).trans (g.final f), fun f => (h.joins f).trans (g.joins f)⟩

theorem joins_cup {f : Nat → Nat} {m : Morph} {ms : List Morph} (h : m.cup = true) : joins f (m :: ms) = (f m.start, f m.stop) :: joins (moved f m) ms := by
  simp [joins, moved, h]

theorem joins_swap {f : Nat → Nat} {m : Morph} {ms : List Morph} (h : m.cup = false) : joins f (m :: ms) = joins (moved f m) ms := by
  simp [joins, h]

theorem Eqv.cons {S : List Nat} (m : Morph) {X Y : List Morph} (h : Eqv (after S m) X Y) : Eqv S (m :: X) (m :: Y) := by
  refine ⟨fun v => ⟨v.1, h.valid v.2⟩, h.left, fun f => h.final _, fun f => ?_⟩
  cases hm : m.cup
  · rw [joins_swap hm, joins_swap hm]; exact h.joins _
  · rw [joins_cup hm, joins_cup hm]; exact (h.joins _).cons _

theorem after_sub {S : List Nat} {m : Morph} {x : Nat} (h : x ∈ after S m) : x ∈ S := by
  unfold after at h
  split_ifs at h
  · exact (List.mem_filter.1 h).1
  · exact h

theorem mem_after {S : List Nat} {m : Morph} {x : Nat} (h : x ∈ S) (h1 : x ≠ m.start) (h2 : x ≠ m.stop) : x ∈ after S m := by
  unfold after
  split_ifs
  · exact List.mem_filter.2 ⟨h, by simp [h1, h2]⟩
  · exact h

theorem after_comm (S : List Nat) (m n : Morph) : after (after S m) n = after (after S n) m := by
  unfold after
  split_ifs
  · simp only [List.filter_filter]
    congr 1
    funext x
    exact Bool.and_comm _ _
  all_goals rfl

theorem moved_comm {f : Nat → Nat} {m n : Morph} (h : Disj m n) (hm : m.start < m.stop) (hn : n.start < n.stop) : moved (moved f m) n = moved (moved f n) m := by
  unfold moved Disj at *
  split_ifs
  · rfl
  · rfl
  · rfl
  · funext x
    simp only
    split_ifs <;> first | rfl | omega | (congr 1; omega)

theorem moved_at {f : Nat → Nat} {m n : Morph} (h : Disj m n) (hm : m.start < m.stop) (hn : n.start < n.stop) : moved f m n.start = f n.start ∧ moved f m n.stop = f n.stop := by
  unfold moved Disj at *
  split_ifs
  · exact ⟨rfl, rfl⟩
  · constructor <;> simp only <;> split_ifs <;> first | rfl | omega

theorem Eqv.swap {S : List Nat} {m n : Morph} (h : Disj m n) (hm : m.start < m.stop) (hn : n.start < n.stop) (X : List Morph) : Eqv S (m :: n :: X) (n :: m :: X) := by
  have h' : Disj n m := h.symm
  refine ⟨?_, ?_, ?_, ?_⟩
  · rintro ⟨a1, a2, v⟩
    refine ⟨⟨after_sub a2.1, after_sub a2.2.1, hn, ?_⟩, ⟨?_, ?_, hm, ?_⟩, ?_⟩
    · intro x hx
      by_cases h1 : x = m.start ∨ x = m.stop
      · unfold Disj at h; rcases h1 with rfl | rfl <;> omega
      · exact a2.2.2.2 x (mem_after hx (by tauto) (by tauto))
    · exact mem_after a1.1 (by unfold Disj at h; omega) (by unfold Disj at h; omega)
    · exact mem_after a1.2.1 (by unfold Disj at h; omega) (by unfold Disj at h; omega)
    · intro x hx
      exact a1.2.2.2 x (after_sub hx)
    · rw [after_comm]; exact v
  · show TextPrint.left (after (after S m) n) X = TextPrint.left (after (after S n) m) X
    rw [after_comm]
  · intro f
    show TextPrint.final (moved (moved f m) n) X = TextPrint.final (moved (moved f n) m) X
    rw [moved_comm h hm hn]
  · intro f
    have c := moved_comm (f := f) h hm hn
    obtain ⟨e1, e2⟩ := moved_at (f := f) h hm hn
    obtain ⟨e3, e4⟩ := moved_at (f := f) h' hn hm
    cases cm : m.cup <;> cases cn : n.cup
    · rw [joins_swap cm, joins_swap cn, joins_swap cn, joins_swap cm, c]
    · rw [joins_swap cm, joins_cup cn, joins_cup cn, joins_swap cm, c, e1, e2]
    · rw [joins_cup cm, joins_swap cn, joins_swap cn, joins_cup cm, c, e3, e4]
    · rw [joins_cup cm, joins_cup cn, joins_cup cn, joins_cup cm, c, e1, e2, e3, e4]
      exact List.Perm.swap _ _ _

theorem Eqv.append {S : List Nat} (A : List Morph) {X Y : List Morph} (h : ∀ T, Eqv T X Y) : Eqv S (A ++ X) (A ++ Y) := by
  induction A generalizing S with
  | nil => exact h S
  | cons a A ih => exact Eqv.cons a ih

/-- A morphism may be moved to the front of those it does not meet. -/
theorem Eqv.pull {S : List Nat} (A B : List Morph) (m : Morph) (X : List Morph) (hm : m.start < m.stop) (hB : ∀ b ∈ B, Disj b m ∧ b.start < b.stop) :
    Eqv S (A ++ B ++ m :: X) (A ++ m :: B ++ X) := by
  rw [List.append_assoc, List.append_assoc]
  apply Eqv.append
  induction B with
  | nil => intro T; exact Eqv.refl _ _
  | cons b B ih =>
    intro T
    have h1 : Eqv T (b :: (B ++ m :: X)) (b :: (m :: B ++ X)) := Eqv.cons b (ih (fun c hc => hB c (by simp [hc])) _)
    exact h1.trans (Eqv.swap (hB b (by simp)).1 (hB b (by simp)).2 hm _)

/-! ## Where a morphism is placed -/

/-- Layers are in order, with no two morphisms that meet. -/
def Sorted (l : List Morph) : Prop := l.Pairwise (fun m n => m.stop < n.start) ∧ ∀ m ∈ l, m.start < m.stop

theorem fits_spec {a b : Nat} : ∀ {l : List Morph} {i j : Nat}, Sorted l → fits a b i l = some j →
    ∃ P Q, l = P ++ Q ∧ j = i + P.length ∧ (∀ p ∈ P, p.stop < a) ∧ ∀ q ∈ Q, b < q.start := by
  intro l
  induction l with
  | nil =>
    intro i j _ h
    simp only [fits, Option.some.injEq] at h
    exact ⟨[], [], rfl, by simp [h], by simp, by simp⟩
  | cons m ms ih =>
    intro i j hs h
    obtain ⟨h1, h2⟩ := List.pairwise_cons.1 hs.1
    unfold fits at h
    split_ifs at h with c1 c2
    · simp only [Option.some.injEq] at h
      refine ⟨[], m :: ms, rfl, by simp [h], by simp, ?_⟩
      intro q hq
      rcases List.mem_cons.1 hq with rfl | hq
      · exact c1
      · have := h1 q hq
        have := hs.2 m (by simp)
        omega
    · obtain ⟨P, Q, e1, e2, e3, e4⟩ := ih ⟨h2, fun n hn => hs.2 n (by simp [hn])⟩ h
      refine ⟨m :: P, Q, by simp [e1], by simp [e2]; omega, ?_, e4⟩
      intro p hp
      rcases List.mem_cons.1 hp with rfl | hp
      · omega
      · exact e3 p hp

theorem climb_spec {a b : Nat} : ∀ {ls : List (List Morph)} {i n j : Nat}, climb a b ls ls.length i = (n, j) →
    (n = ls.length ∧ j = i) ∨ ∃ low l high, ls = low ++ l :: high ∧ n = high.length ∧ fits a b 0 l = some j ∧ ∀ l' ∈ low, (fits a b 0 l').isSome = true := by
  intro ls
  induction ls with
  | nil =>
    intro i n j h
    simp only [climb, Prod.mk.injEq] at h
    exact .inl ⟨h.1.symm, h.2.symm⟩
  | cons l ls ih =>
    intro i n j h
    simp only [climb, List.length_cons, Nat.add_sub_cancel] at h
    cases hf : fits a b 0 l with
    | none =>
      rw [hf] at h
      simp only [Prod.mk.injEq] at h
      exact .inl ⟨h.1.symm, h.2.symm⟩
    | some k =>
      rw [hf] at h
      simp only at h
      right
      rcases ih h with ⟨h1, h2⟩ | ⟨low, l', high, e1, e2, e3, e4⟩
      · exact ⟨[], l, ls, rfl, h1, by rw [hf, h2], by simp⟩
      · refine ⟨l :: low, l', high, by simp [e1], e2, e3, ?_⟩
        intro x hx
        rcases List.mem_cons.1 hx with rfl | hx
        · simp [hf]
        · exact e4 x hx

theorem insertIdx_split (P Q : List Morph) (m : Morph) : (P ++ Q).insertIdx P.length m = P ++ m :: Q := by
  induction P with
  | nil => simp
  | cons p P ih => simp [ih]

theorem modify_split (A C : List (List Morph)) (l : List Morph) (g : List Morph → List Morph) : (A ++ l :: C).modify A.length g = A ++ g l :: C := by
  induction A with
  | nil => simp
  | cons a A ih => simp [ih]

theorem place_spec {compress : Bool} {layers : List (List Morph)} {m : Morph} (hs : ∀ l ∈ layers, Sorted l) (hm : m.start < m.stop) :
    (∀ l ∈ place compress layers m, Sorted l) ∧
    ∃ A B, layers.flatten = A ++ B ∧ (place compress layers m).flatten = A ++ m :: B ∧ ∀ b ∈ B, Disj b m ∧ b.start < b.stop := by
  have single : Sorted [m] := ⟨by simp, by simp [hm]⟩
  have appended : (∀ l ∈ layers ++ [[m]], Sorted l) ∧ ∃ A B, layers.flatten = A ++ B ∧ (layers ++ [[m]]).flatten = A ++ m :: B ∧ ∀ b ∈ B, Disj b m ∧ b.start < b.stop := by
    refine ⟨?_, layers.flatten, [], by simp, by simp, by simp⟩
    intro l hl
    rcases List.mem_append.1 hl with hl | hl
    · exact hs l hl
    · rw [List.mem_singleton.1 hl]; exact single
  unfold place
  cases compress
  · simp only [Bool.false_eq_true, if_false, Nat.lt_irrefl]
    exact appended
  · simp only [if_true]
    generalize hq : climb m.start m.stop layers.reverse layers.length 0 = q
    obtain ⟨n, j⟩ := q
    rw [← List.length_reverse] at hq
    rcases climb_spec hq with ⟨h1, h2⟩ | ⟨low, l, high, e1, e2, e3, e4⟩
    · have : ¬ n < layers.length := by rw [h1]; simp
      simp only [this, if_false]
      exact appended
    · have el : layers = high.reverse ++ l :: low.reverse := by
        have := congrArg List.reverse e1
        simpa using this
      have hl : Sorted l := hs l (by rw [el]; simp)
      obtain ⟨P, Q, f1, f2, f3, f4⟩ := fits_spec hl e3
      have hn : n < layers.length := by rw [el, e2]; simp
      have hnl : n = high.reverse.length := by simp [e2]
      have hj : j = P.length := by omega
      simp only [hn, if_true]
      have em : layers.modify n (fun l => l.insertIdx j m) = high.reverse ++ (P ++ m :: Q) :: low.reverse := by
        rw [el, hnl, modify_split, f1, hj, insertIdx_split]
      rw [em]
      have hPQ : ∀ x ∈ P ++ Q, x.start < x.stop := by rw [← f1]; exact hl.2
      have hlow : ∀ l' ∈ low, ∀ b ∈ l', Disj b m ∧ b.start < b.stop := by
        intro l' hl' b hb
        have hs' := hs l' (by rw [el]; simp [hl'])
        obtain ⟨k, hk⟩ := Option.isSome_iff_exists.1 (e4 l' hl')
        obtain ⟨P', Q', g1, g2, g3, g4⟩ := fits_spec hs' hk
        refine ⟨?_, hs'.2 b hb⟩
        rw [g1] at hb
        rcases List.mem_append.1 hb with hb | hb
        · exact .inl (g3 b hb)
        · exact .inr (g4 b hb)
      refine ⟨?_, high.reverse.flatten ++ P, Q ++ low.reverse.flatten, ?_, ?_, ?_⟩
      · intro l' hl'
        simp only [List.mem_append, List.mem_cons] at hl'
        rcases hl' with hl' | hl' | hl'
        · exact hs l' (by rw [el]; simp only [List.mem_append, List.mem_cons]; tauto)
        · subst hl'
          have hp := hl.1
          rw [f1, List.pairwise_append] at hp
          refine ⟨?_, ?_⟩
          · rw [List.pairwise_append, List.pairwise_cons]
            refine ⟨hp.1, ⟨fun q hq => f4 q hq, hp.2.1⟩, ?_⟩
            intro p hp' x hx
            rcases List.mem_cons.1 hx with rfl | hx
            · exact f3 p hp'
            · exact hp.2.2 p hp' x hx
          · intro x hx
            simp only [List.mem_append, List.mem_cons] at hx
            rcases hx with hx | rfl | hx
            · exact hPQ x (by simp [hx])
            · exact hm
            · exact hPQ x (by simp [hx])
        · exact hs l' (by rw [el]; simp only [List.mem_append, List.mem_cons]; tauto)
      · rw [el, f1]; simp
      · simp
      · intro b hb
        rcases List.mem_append.1 hb with hb | hb
        · exact ⟨.inr (f4 b hb), hPQ b (by simp [hb])⟩
        · obtain ⟨l', hl', hb⟩ := List.mem_flatten.1 hb
          exact hlow l' (by simpa using hl') b hb

/-- The morphisms in the order of the diagram. -/
def colMorphs : List Nat → List (Bool × Nat) → List Morph
  | _, [] => []
  | scan, (cup, off) :: bs => ⟨cup, scan.getD off 0, scan.getD (off + 1) 0⟩ :: colMorphs (if cup then scan.take off ++ scan.drop (off + 2) else scan) bs

/-- Offsets are in range. -/
def InRange : Nat → List (Bool × Nat) → Prop
  | _, [] => True
  | n, (cup, off) :: bs => off + 1 < n ∧ InRange (if cup then n - 2 else n) bs

theorem split_at {scan : List Nat} {off : Nat} (h : off + 1 < scan.length) : ∃ L a b R, scan = L ++ a :: b :: R ∧ L.length = off := by
  refine ⟨scan.take off, scan[off], scan[off + 1], scan.drop (off + 2), ?_, by simp; omega⟩
  rw [List.getElem_cons_drop (h := h), List.getElem_cons_drop (h := by omega), List.take_append_drop]

theorem place_all {compress : Bool} : ∀ (bs : List (Bool × Nat)) (layers : List (List Morph)) (scan : List Nat), (∀ l ∈ layers, Sorted l) → scan.Pairwise (· < ·) →
    InRange scan.length bs → (∀ l ∈ placeAll compress layers scan bs, Sorted l) ∧ ∀ S, Eqv S (layers.flatten ++ colMorphs scan bs) (placeAll compress layers scan bs).flatten := by
  intro bs
  induction bs with
  | nil =>
    intro layers scan hs _ _
    exact ⟨hs, fun S => by simp only [colMorphs, placeAll, List.append_nil]; exact Eqv.refl _ _⟩
  | cons b bs ih =>
    obtain ⟨cup, off⟩ := b
    intro layers scan hs hp hr
    obtain ⟨h1, h2⟩ := hr
    obtain ⟨L, a, c, R, rfl, hL⟩ := split_at h1
    have ga : (L ++ a :: c :: R).getD off 0 = a := by rw [← hL]; simp [List.getD_eq_getElem?_getD]
    have gc : (L ++ a :: c :: R).getD (off + 1) 0 = c := by rw [← hL]; simp [List.getD_eq_getElem?_getD, List.getElem?_append_right]
    have hac : a < c := by
      rw [List.pairwise_append] at hp
      exact (List.pairwise_cons.1 hp.2.1).1 c (by simp)
    simp only [placeAll, colMorphs, ga, gc]
    obtain ⟨p1, A, B, p2, p3, p4⟩ := place_spec (compress := compress) (m := ⟨cup, a, c⟩) hs hac
    have hsub : (if cup = true then (L ++ a :: c :: R).take off ++ (L ++ a :: c :: R).drop (off + 2) else L ++ a :: c :: R).Pairwise (· < ·) := by
      split_ifs
      · have e : (L ++ a :: c :: R).take off ++ (L ++ a :: c :: R).drop (off + 2) = L ++ R := by
          rw [← hL]; simp
        rw [e]
        refine List.Pairwise.sublist ?_ hp
        exact List.Sublist.append (List.Sublist.refl _) (List.Sublist.trans (List.sublist_cons_self _ _) (List.sublist_cons_self _ _))
      · exact hp
    have hlen : (if cup = true then (L ++ a :: c :: R).take off ++ (L ++ a :: c :: R).drop (off + 2) else L ++ a :: c :: R).length = if cup = true then (L ++ a :: c :: R).length - 2 else (L ++ a :: c :: R).length := by
      split_ifs
      · simp only [List.length_append, List.length_take, List.length_drop, List.length_cons]; omega
      · rfl
    obtain ⟨q1, q2⟩ := ih (place compress layers ⟨cup, a, c⟩) _ p1 hsub (by rw [hlen]; exact h2)
    refine ⟨q1, fun S => ?_⟩
    refine Eqv.trans ?_ (q2 S)
    rw [p2, p3]
    exact Eqv.pull A B ⟨cup, a, c⟩ _ hac p4

end TextPrint
end Lambeq
