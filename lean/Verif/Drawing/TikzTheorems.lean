import Verif.Drawing.Tikz
import Mathlib.Data.List.Forall2
import Mathlib.Tactic.Linarith

/-!
# Pictures in TikZ (C116)
-/

namespace Lambeq
namespace Tikz
set_option linter.unusedSectionVars false
set_option linter.unusedSimpArgs false
set_option linter.unusedVariables false

variable {K : Type} [LinearOrder K]

/-! ### Specification -/

/-- What is asked for: a wire between two places, or a polygon. -/
inductive Shape (K : Type)
  | wire (source target : K × K)
  | polygon (points : List (K × K))

/-- The wires and polygons of a call, in order. -/
def drawn : Cmd K → List (Shape K)
  | .polygon pts _ => [.polygon pts]
  | .wire s t _ _ _ _ => [.wire s t]
  | .spiders l => l.flatMap (fun x => x.cod.map (fun w => .wire x.place w.1) ++ x.dom.map (fun w => .wire w.1 x.place))
  | _ => []

/-- The places where texts are put. -/
def labelPlaces (cs : List (Cmd K)) : List (K × K) :=
  cs.filterMap (fun c => match c with | .text _ x _ _ _ => some x | _ => none)

/-- The ends of the wires. -/
def wirePlaces (cs : List (Cmd K)) : List (K × K) :=
  (cs.flatMap drawn).flatMap (fun s => match s with | .wire a b => [a, b] | .polygon _ => [])

/-- The numbers of nodes that a line refers to. -/
def EdgeLine.ids : EdgeLine → List Nat
  | .polygon _ ns => ns
  | .wire _ _ _ a b => [a, b]

/-- `n` is the number of a node that is declared in `ls`, at the place `x`. -/
def Names (ls : List (NodeLine K)) (n : Nat) (x : K × K) : Prop := ∃ l ∈ ls, l.id = n ∧ l.place = x

/-- A line shows a shape: its nodes are at the places of the shape; a polygon is closed. -/
def Shows (ls : List (NodeLine K)) : Shape K → EdgeLine → Prop
  | .wire s t, .wire _ _ _ a b => Names ls a s ∧ Names ls b t
  | .polygon pts, .polygon _ ns => List.Forall₂ (Names ls) ns (pts ++ pts.take 1)
  | _, _ => False

/-- All lines of nodes of a picture. -/
def Pic.lines (p : Pic K) : List (NodeLine K) := p.nodeLayer ++ p.labelLayer

/-- Whatever a statement refers to has been declared before it. -/
def DeclaredBefore (out : List (Stmt K)) : Prop :=
  ∀ pre e post, out = pre ++ .edge e :: post → ∀ n ∈ e.ids, ∃ l, Stmt.node l ∈ pre ∧ l.id = n

/-! ### Invariant -/

/-- `n` names a node at `x`, in the layer of nodes if no text is put there. -/
def NamesIn (L : List (K × K)) (p : Pic K) (n : Nat) (x : K × K) : Prop :=
  ∃ l ∈ p.lines, l.id = n ∧ l.place = x ∧ (x ∉ L → l ∈ p.nodeLayer)

def ShowsIn (L : List (K × K)) (p : Pic K) : Shape K → EdgeLine → Prop
  | .wire s t, .wire _ _ _ a b => NamesIn L p a s ∧ NamesIn L p b t
  | .polygon pts, .polygon _ ns => List.Forall₂ (Names p.nodeLayer) ns (pts ++ pts.take 1)
  | _, _ => False

structure Good (L : List (K × K)) (sh : List (Shape K)) (p : Pic K) : Prop where
  ids : (p.lines.map NodeLine.id).Perm (List.range' 1 p.lines.length)
  top : maxValue p.nodes = p.lines.length
  named : ∀ kv ∈ p.nodes, NamesIn L p kv.2 kv.1
  shows : List.Forall₂ (ShowsIn L p) sh p.edgeLayer

theorem maxValue_le (d : List ((K × K) × Nat)) (kv : (K × K) × Nat) (h : kv ∈ d) : kv.2 ≤ maxValue d := by
  induction d with
  | nil => cases h
  | cons q d ih =>
    simp only [maxValue, List.map_cons, List.foldr_cons]
    rcases List.mem_cons.1 h with rfl | h
    · exact le_max_left _ _
    · exact le_trans (ih h) (le_max_right _ _)

theorem foldr_max_le (d : List ((K × K) × Nat)) (n : Nat) (h : ∀ kv ∈ d, kv.2 ≤ n) : (d.map Prod.snd).foldr max 0 ≤ n := by
  induction d with
  | nil => exact Nat.zero_le n
  | cons r d ih =>
    simp only [List.map_cons, List.foldr_cons]
    exact max_le (h r (by simp)) (ih (fun kv hk => h kv (List.mem_cons_of_mem _ hk)))

theorem maxValue_set (x : K × K) (n : Nat) (d : List ((K × K) × Nat)) (h : ∀ kv ∈ d, kv.2 ≤ n) : maxValue (dictSet x n d) = n := by
  induction d with
  | nil => simp [dictSet, maxValue]
  | cons q d ih =>
    have ih := ih (fun kv hk => h kv (List.mem_cons_of_mem _ hk))
    have hm : (d.map Prod.snd).foldr max 0 ≤ n := foldr_max_le d n (fun kv hk => h kv (List.mem_cons_of_mem _ hk))
    rw [dictSet]
    split
    · simp only [maxValue, List.map_cons, List.foldr_cons]
      exact max_eq_left hm
    · simp only [maxValue, List.map_cons, List.foldr_cons] at ih ⊢
      rw [ih]
      exact max_eq_right (h q (by simp))

theorem mem_dictSet (x : K × K) (n : Nat) (d : List ((K × K) × Nat)) (kv : (K × K) × Nat) (h : kv ∈ dictSet x n d) : kv = (x, n) ∨ kv ∈ d := by
  induction d with
  | nil => simpa [dictSet] using h
  | cons q d ih =>
    rw [dictSet] at h
    split at h
    · rcases List.mem_cons.1 h with h | h
      · exact .inl h
      · exact .inr (List.mem_cons_of_mem _ h)
    · rcases List.mem_cons.1 h with h | h
      · exact .inr (by rw [h]; simp)
      · rcases ih h with h | h
        · exact .inl h
        · exact .inr (List.mem_cons_of_mem _ h)

theorem lookup_dictSet (x y : K × K) (n : Nat) (d : List ((K × K) × Nat)) :
    (dictSet x n d).lookup y = if y = x then some n else d.lookup y := by
  induction d with
  | nil =>
    by_cases h : y = x
    · simp [dictSet, h]
    · simp [dictSet, List.lookup, h, beq_eq_false_iff_ne.2 h]
  | cons q d ih =>
    obtain ⟨a, b⟩ := q
    rw [dictSet]
    split
    · next h =>
      simp only at h
      subst h
      by_cases h : y = a
      · simp [h]
      · simp [List.lookup, h, beq_eq_false_iff_ne.2 h]
    · next h =>
      simp only at h
      simp only [List.lookup, ih]
      by_cases h2 : y = a
      · subst h2; simp [h]
      · simp [beq_eq_false_iff_ne.2 h2]

theorem mem_of_lookup (d : List ((K × K) × Nat)) (x : K × K) (n : Nat) (h : d.lookup x = some n) : (x, n) ∈ d := by
  induction d with
  | nil => cases h
  | cons q d ih =>
    obtain ⟨a, b⟩ := q
    rw [List.lookup] at h
    split at h
    · next hb =>
      have := beq_iff_eq.1 hb
      subst this
      injection h with h
      subst h
      simp
    · exact List.mem_cons_of_mem _ (ih h)

theorem NamesIn.mono {L : List (K × K)} {p q : Pic K} (h1 : ∀ l ∈ p.nodeLayer, l ∈ q.nodeLayer) (h2 : ∀ l ∈ p.labelLayer, l ∈ q.labelLayer)
    {n : Nat} {x : K × K} (h : NamesIn L p n x) : NamesIn L q n x := by
  obtain ⟨l, hl, a, b, c⟩ := h
  refine ⟨l, ?_, a, b, fun hx => h1 l (c hx)⟩
  rcases List.mem_append.1 hl with hl | hl
  · exact List.mem_append_left _ (h1 l hl)
  · exact List.mem_append_right _ (h2 l hl)

theorem ShowsIn.mono {L : List (K × K)} {p q : Pic K} (h1 : ∀ l ∈ p.nodeLayer, l ∈ q.nodeLayer) (h2 : ∀ l ∈ p.labelLayer, l ∈ q.labelLayer)
    {s : Shape K} {e : EdgeLine} (h : ShowsIn L p s e) : ShowsIn L q s e := by
  cases s with
  | wire a b => cases e with
    | wire i o op n m => exact ⟨h.1.mono h1 h2, h.2.mono h1 h2⟩
    | polygon op ns => exact h.elim
  | polygon pts => cases e with
    | wire i o op n m => exact h.elim
    | polygon op ns => exact List.Forall₂.imp (fun n x ⟨l, hl, r⟩ => ⟨l, h1 l hl, r⟩) h

theorem node_id (p : Pic K) (x : K × K) (b : Bool) (t o : String) : (addNode x b t o p).1 = maxValue p.nodes + 1 := by
  rw [addNode]
  dsimp only
  split
  · next h =>
    rw [List.isEmpty_iff.1 h]
    rfl
  · rfl

theorem addNode_good {L : List (K × K)} {sh : List (Shape K)} {p : Pic K} (h : Good L sh p) (x : K × K) (b : Bool) (t o : String)
    (hb : b = true → x ∈ L) : Good L sh (addNode x b t o p).2 := by
  have hid := node_id p x b t o
  have h1 : ∀ l ∈ p.nodeLayer, l ∈ (addNode x b t o p).2.nodeLayer := by
    intro l hl
    cases b
    · exact List.mem_append_left _ hl
    · exact hl
  have h2 : ∀ l ∈ p.labelLayer, l ∈ (addNode x b t o p).2.labelLayer := by
    intro l hl
    cases b
    · exact hl
    · exact List.mem_append_left _ hl
  have hp : (addNode x b t o p).2.lines.Perm (p.lines ++ [⟨o, (addNode x b t o p).1, x, t⟩]) := by
    cases b
    · show (p.nodeLayer ++ [_] ++ p.labelLayer).Perm (p.nodeLayer ++ p.labelLayer ++ [_])
      rw [List.append_assoc, List.append_assoc]
      exact List.Perm.append_left _ List.perm_append_comm
    · show (p.nodeLayer ++ (p.labelLayer ++ [_])).Perm (p.nodeLayer ++ p.labelLayer ++ [_])
      rw [← List.append_assoc]
      exact List.Perm.refl _
  have hlen : (addNode x b t o p).2.lines.length = p.lines.length + 1 := by rw [hp.length_eq]; simp
  refine ⟨?_, ?_, ?_, ?_⟩
  · rw [hlen, List.range'_1_concat]
    refine (hp.map _).trans ?_
    rw [List.map_append, List.map_cons, List.map_nil, hid, h.top, Nat.add_comm 1]
    exact List.Perm.append_right _ h.ids
  · show maxValue (dictSet x (addNode x b t o p).1 p.nodes) = _
    rw [maxValue_set _ _ _ (fun kv hk => by rw [hid]; exact le_trans (maxValue_le _ kv hk) (Nat.le_succ _)), hid, hlen, h.top]
  · intro kv hk
    rcases mem_dictSet _ _ _ _ hk with rfl | hk
    · refine ⟨⟨o, (addNode x b t o p).1, x, t⟩, (hp.mem_iff).2 (by simp), rfl, rfl, fun hx => ?_⟩
      cases b
      · exact List.mem_append_right _ (by simp [addNode])
      · exact absurd (hb rfl) hx
    · exact (h.named kv hk).mono h1 h2
  · exact List.Forall₂.imp (fun s e hs => hs.mono h1 h2) h.shows

theorem addNode_names (p : Pic K) (x : K × K) (t o : String) :
    Names (addNode x false t o p).2.nodeLayer (addNode x false t o p).1 x :=
  ⟨⟨o, (addNode x false t o p).1, x, t⟩, List.mem_append_right _ (by simp [addNode]), rfl, rfl⟩

theorem Names.mono {a b : List (NodeLine K)} (h : ∀ l ∈ a, l ∈ b) {n : Nat} {x : K × K} (hn : Names a n x) : Names b n x := by
  obtain ⟨l, hl, r⟩ := hn
  exact ⟨l, h l hl, r⟩

theorem addPoints_good {L : List (K × K)} {sh : List (Shape K)} (pts : List (K × K)) {p : Pic K} (h : Good L sh p) :
    Good L sh (addPoints pts p).2 ∧ (∀ l ∈ p.nodeLayer, l ∈ (addPoints pts p).2.nodeLayer) ∧
      List.Forall₂ (Names (addPoints pts p).2.nodeLayer) (addPoints pts p).1 pts := by
  induction pts generalizing p with
  | nil => exact ⟨h, fun l hl => hl, .nil⟩
  | cons x pts ih =>
    obtain ⟨h1, h2, h3⟩ := ih (addNode_good h x false "" "" (by simp))
    refine ⟨h1, fun l hl => h2 l (List.mem_append_left _ hl), .cons ?_ h3⟩
    exact (addNode_names p x "" "").mono h2

theorem addStyle_good {L : List (K × K)} {sh : List (Shape K)} {p : Pic K} (s : StyleLine) (h : Good L sh p) : Good L sh (addStyle s p) := by
  rw [addStyle]
  split
  · exact h
  · exact ⟨h.ids, h.top, h.named, h.shows⟩

theorem ensure_good {L : List (K × K)} {sh : List (Shape K)} {p : Pic K} (x : K × K) (h : Good L sh p) : Good L sh (ensure x p) := by
  rw [ensure]
  split
  · exact h
  · exact addNode_good h _ _ _ _ (by simp)

theorem ensure_lookup (p : Pic K) (x y : K × K) (h : y = x ∨ (p.nodes.lookup y).isSome) : ((ensure x p).nodes.lookup y).isSome := by
  rw [ensure]
  split
  · next hs =>
    rcases h with rfl | h
    · exact hs
    · exact h
  · show ((dictSet x _ p.nodes).lookup y).isSome
    rw [lookup_dictSet]
    split
    · rfl
    · next hn =>
      rcases h with rfl | h
      · exact absurd rfl hn
      · exact h

theorem getD_named {L : List (K × K)} {sh : List (Shape K)} {p : Pic K} (x : K × K) (h : Good L sh p) (hx : (p.nodes.lookup x).isSome) :
    NamesIn L p ((p.nodes.lookup x).getD 0) x := by
  obtain ⟨n, hn⟩ := Option.isSome_iff_exists.1 hx
  rw [hn]
  exact h.named (x, n) (mem_of_lookup _ _ _ hn)

theorem drawWire_good {L : List (K × K)} {sh : List (Shape K)} {p : Pic K} (st : Style K) (s t : K × K) (bo bi : Bool) (sty c : String)
    (h : Good L sh p) : Good L (sh ++ [.wire s t]) (drawWire st s t bo bi sty c p) := by
  unfold drawWire
  extract_lets s' q r
  have hq : Good L sh q := by
    show Good L sh (if st.useTikzstyles then _ else _)
    split
    · exact addStyle_good _ h
    · exact h
  have hr : Good L sh r := ensure_good _ (ensure_good _ hq)
  have h1 : (r.nodes.lookup s).isSome := ensure_lookup _ _ _ (.inr (ensure_lookup _ _ _ (.inl rfl)))
  have h2 : (r.nodes.lookup t).isSome := ensure_lookup _ _ _ (.inl rfl)
  refine ⟨hr.ids, hr.top, hr.named, ?_⟩
  refine List.rel_append (R := ShowsIn L r) hr.shows (.cons ⟨getD_named s hr h1, getD_named t hr h2⟩ .nil)

theorem drawPolygon_good {L : List (K × K)} {sh : List (Shape K)} {p q : Pic K} (st : Style K) (pts : List (K × K)) (c : String)
    (h : Good L sh p) (hq : drawPolygon st pts c p = .ok q) : Good L (sh ++ [.polygon pts]) q := by
  rw [drawPolygon] at hq
  obtain ⟨h1, h2, h3⟩ := addPoints_good (L := L) (sh := sh) pts h
  split at hq
  · cases hq
  · next n ns hn =>
    extract_lets name body q1 q2 at hq
    injection hq with hq
    subst hq
    have hg : Good L sh q2 := by
      show Good L sh (if st.useTikzstyles then _ else _)
      split
      · exact addStyle_good _ h1
      · exact h1
    have hl : q2.nodeLayer = (addPoints pts p).2.nodeLayer := by
      show (if st.useTikzstyles then addStyle _ q1 else q1).nodeLayer = _
      split
      · rw [addStyle]
        split <;> rfl
      · rfl
    refine ⟨hg.ids, hg.top, hg.named, ?_⟩
    refine List.rel_append (R := ShowsIn L q2) hg.shows (.cons ?_ .nil)
    show List.Forall₂ (Names q2.nodeLayer) _ _
    rw [hl]
    rw [hn] at h3
    cases pts with
    | nil => cases h3
    | cons x pts =>
      exact List.rel_append h3 (.cons (by cases h3; assumption) .nil)

theorem foldl_good {A : Type} {L : List (K × K)} (f : Pic K → A → Pic K) (g : A → List (Shape K)) (l : List A)
    (hf : ∀ sh p a, Good L sh p → Good L (sh ++ g a) (f p a)) {sh : List (Shape K)} {p : Pic K} (h : Good L sh p) :
    Good L (sh ++ l.flatMap g) (l.foldl f p) := by
  induction l generalizing sh p with
  | nil => simpa using h
  | cons a l ih =>
    have := ih (hf sh p a h)
    simpa [List.append_assoc] using this

theorem drawSpider_good {L : List (K × K)} {sh : List (Shape K)} {p : Pic K} (st : Style K) (x : Spider K) (h : Good L sh p) :
    Good L (sh ++ (x.cod.map (fun w => .wire x.place w.1) ++ x.dom.map (fun w => .wire w.1 x.place))) (drawSpider st x p) := by
  unfold drawSpider
  extract_lets q r
  have hq : Good L sh q := by
    show Good L sh (match x.options with | some o => _ | none => _)
    split
    · exact addNode_good h _ _ _ _ (by simp)
    · exact h
  have hr : Good L (sh ++ x.cod.flatMap (fun (w : (K × K) × String) => [Shape.wire x.place w.1])) r :=
    foldl_good _ (fun (w : (K × K) × String) => [.wire x.place w.1]) _ (fun sh p a h => drawWire_good st _ _ _ _ _ _ h) hq
  have hs := foldl_good (L := L) (fun (q : Pic K) (w : (K × K) × String) => drawWire st w.1 x.place false true "" w.2 q)
    (fun w => [Shape.wire w.1 x.place]) x.dom (fun sh p a h => drawWire_good st _ _ _ _ _ _ h) hr
  simpa [List.append_assoc, List.flatMap_singleton', ← List.map_eq_flatMap] using hs

theorem step_good {L : List (K × K)} {sh : List (Shape K)} {p q : Pic K} (st : Style K) (c : Cmd K) (hL : ∀ x ∈ labelPlaces [c], x ∈ L)
    (h : Good L sh p) (hq : step st p c = .ok q) : Good L (sh ++ drawn c) q := by
  cases c with
  | node x t o =>
    injection hq with hq
    subst hq
    have := addNode_good h x false t (", ".intercalate o) (by simp)
    show Good L (sh ++ []) _
    rw [List.append_nil]
    exact this
  | text t x l tp f =>
    injection hq with hq
    subst hq
    show Good L (sh ++ []) _
    rw [List.append_nil]
    exact addNode_good h x true t _ (fun _ => hL x (by simp [labelPlaces]))
  | polygon pts c => exact drawPolygon_good st pts c h hq
  | wire s t bo bi sty c =>
    injection hq with hq
    subst hq
    exact drawWire_good st s t bo bi sty c h
  | spiders l =>
    injection hq with hq
    subst hq
    exact foldl_good _ _ _ (fun sh p a h => drawSpider_good st a h) h

theorem labels_cons (c : Cmd K) (cs : List (Cmd K)) : labelPlaces (c :: cs) = labelPlaces [c] ++ labelPlaces cs := by
  cases c <;> rfl

theorem run_good {L : List (K × K)} (st : Style K) (cs : List (Cmd K)) {sh : List (Shape K)} {p q : Pic K}
    (hL : ∀ x ∈ labelPlaces cs, x ∈ L) (h : Good L sh p) (hq : run st cs p = .ok q) : Good L (sh ++ cs.flatMap drawn) q := by
  induction cs generalizing sh p with
  | nil =>
    injection hq with hq
    subst hq
    simpa using h
  | cons c cs ih =>
    rw [run] at hq
    split at hq
    · cases hq
    · next r hr =>
      rw [labels_cons] at hL
      have h1 := step_good st c (fun x hx => hL x (List.mem_append_left _ hx)) h hr
      have h2 := ih (fun x hx => hL x (List.mem_append_right _ hx)) h1 hq
      simpa [List.append_assoc] using h2

theorem empty_good (L : List (K × K)) : Good L [] ({} : Pic K) :=
  ⟨by simp [Pic.lines], rfl, by simp, .nil⟩

/-! ### Theorems -/

/-- C116: whatever is drawn, the nodes and labels have the numbers 1, 2, ..., each once. -/
theorem C116_ids (st : Style K) (cs : List (Cmd K)) (p : Pic K) (h : run st cs {} = .ok p) :
    (p.lines.map NodeLine.id).Perm (List.range' 1 p.lines.length) ∧ (p.lines.map NodeLine.id).Nodup ∧ 0 ∉ p.lines.map NodeLine.id := by
  have hg := (run_good st cs (fun x hx => hx) (empty_good (labelPlaces cs)) h).ids
  exact ⟨hg, hg.nodup_iff.2 List.nodup_range', fun h0 => by simpa using (hg.mem_iff).1 h0⟩

/-- C116: the picture has one line for each wire and each polygon that has been drawn, in order; the line refers to nodes at the ends of the wire,
or at the points of the polygon, which is closed. -/
theorem C116_lines (st : Style K) (cs : List (Cmd K)) (p : Pic K) (h : run st cs {} = .ok p) :
    List.Forall₂ (Shows p.lines) (cs.flatMap drawn) p.edgeLayer := by
  have hg := (run_good st cs (fun x hx => hx) (empty_good (labelPlaces cs)) h).shows
  refine List.Forall₂.imp (fun s e hs => ?_) hg
  cases s with
  | wire a b => cases e with
    | wire i o op n m =>
      obtain ⟨⟨l, h1, h2, h3, _⟩, ⟨l', h1', h2', h3', _⟩⟩ := hs
      exact ⟨⟨l, h1, h2, h3⟩, ⟨l', h1', h2', h3'⟩⟩
    | polygon op ns => exact hs.elim
  | polygon pts => cases e with
    | wire i o op n m => exact hs.elim
    | polygon op ns => exact List.Forall₂.imp (fun n x ⟨l, hl, r⟩ => ⟨l, List.mem_append_left _ hl, r⟩) hs

theorem forall₂_left {A B : Type} {R : A → B → Prop} {l : List A} {m : List B} (h : List.Forall₂ R l m) (b : B) (hb : b ∈ m) : ∃ a ∈ l, R a b := by
  induction h with
  | nil => cases hb
  | cons hr _ ih =>
    rcases List.mem_cons.1 hb with rfl | hb
    · exact ⟨_, by simp, hr⟩
    · obtain ⟨a, ha, hr⟩ := ih hb
      exact ⟨a, List.mem_cons_of_mem _ ha, hr⟩

/-- C116, partial: in the output every line comes after the nodes that it refers to, if no wire ends where a text is put. -/
theorem C116_order_partial (st : Style K) (cs : List (Cmd K)) (p : Pic K) (baseline : K × K) (h : run st cs {} = .ok p)
    (hd : ∀ x ∈ labelPlaces cs, x ∉ wirePlaces cs) : DeclaredBefore (output baseline p) := by
  have hg := (run_good st cs (fun x hx => hx) (empty_good (labelPlaces cs)) h).shows
  rw [List.nil_append] at hg
  intro pre e post ho n hn
  have hnode : ∀ {x : Nat}, (∃ l ∈ p.nodeLayer, l.id = x) → ∃ l, Stmt.node l ∈ (Stmt.node ⟨"", 0, baseline, ""⟩ :: p.nodeLayer.map Stmt.node) ∧ l.id = x := by
    rintro x ⟨l, hl, hx⟩
    exact ⟨l, List.mem_cons_of_mem _ (List.mem_map_of_mem hl), hx⟩
  have he : e ∈ p.edgeLayer := by
    have : Stmt.edge e ∈ output baseline p := by rw [ho]; simp
    simpa [output] using this
  have hfront : ∃ r, pre = (Stmt.node ⟨"", 0, baseline, ""⟩ :: p.nodeLayer.map Stmt.node) ++ r := by
    rw [output, List.append_assoc] at ho
    rcases List.append_eq_append_iff.1 ho with ⟨r, h1, h2⟩ | ⟨r, h1, h2⟩
    · exact ⟨r, h1⟩
    · cases r with
      | nil => exact ⟨[], by rw [h1]; simp⟩
      | cons y r =>
        have : y = Stmt.edge e := by
          have := congrArg List.head? h2
          simpa using this.symm
        subst this
        have hm : Stmt.edge e ∈ (Stmt.node ⟨"", 0, baseline, ""⟩ :: p.nodeLayer.map Stmt.node) := by rw [h1]; simp
        simp at hm
  obtain ⟨r, hr⟩ := hfront
  suffices hs : ∃ l ∈ p.nodeLayer, l.id = n by
    obtain ⟨l, hl, hx⟩ := hnode hs
    exact ⟨l, by rw [hr]; exact List.mem_append_left _ hl, hx⟩
  obtain ⟨s, hs, hsh⟩ := forall₂_left hg e he
  cases s with
  | wire a b => cases e with
    | polygon op ns => exact hsh.elim
    | wire i o op u v =>
      have hw : ∀ x, x = a ∨ x = b → x ∉ labelPlaces cs := by
        intro x hx hL
        refine hd x hL ?_
        rw [wirePlaces, List.mem_flatMap]
        exact ⟨_, hs, by simpa using hx⟩
      obtain ⟨⟨l, _, h2, _, h4⟩, ⟨l', _, h2', _, h4'⟩⟩ := hsh
      rcases List.mem_cons.1 hn with rfl | hn
      · exact ⟨l, h4 (hw a (.inl rfl)), h2⟩
      · rw [List.mem_singleton] at hn
        subst hn
        exact ⟨l', h4' (hw b (.inr rfl)), h2'⟩
  | polygon pts => cases e with
    | wire i o op u v => exact hsh.elim
    | polygon op ns =>
      have hf : List.Forall₂ (Names p.nodeLayer) ns (pts ++ pts.take 1) := hsh
      obtain ⟨x, _, l, hl, h1, _⟩ := forall₂_left hf.flip n hn
      exact ⟨l, hl, h1⟩

/-! ### Concrete pictures, and refutations -/

/-- A style, with the loosenesses of two wires. -/
def sampleStyle (tikz : Bool) : Style Int where
  useTikzstyles := tikz
  boxColor := fun _ => "WHITE"
  wireColor := fun _ => "BLACK"
  boxWidth := "1"
  wireWidth := "1"
  looseness := fun a b => if a.1 = b.1 ∨ a.2 = b.2 then none else if b.1 - a.1 = b.2 - a.2 then some "1.4849" else some "0.9391"

/-- A box with a text, a wire into it, and a spider. -/
def samplePicture : List (Cmd Int) :=
  [.polygon [(0, 0), (2, 0), (2, 2), (0, 2)] "white", .text "box" (1, 1) false false none, .wire (1, 0) (1, -2) false false "" "#000000",
    .spiders [⟨(1, -2), some "circle, fill=black", [((0, -3), "#000000"), ((2, -3), "#000000")], [((1, 0), "#000000")]⟩]]

/-- Non-vacuity: this picture is drawn, and no text is at an end of a wire. -/
example : ((run (sampleStyle false) samplePicture {}).toOption.map (fun p => (p.lines.map NodeLine.id, p.edgeLayer.map EdgeLine.ids))) =
      some ([1, 2, 3, 4, 6, 7, 8, 9, 10, 5], [[1, 2, 3, 4, 1], [6, 7], [8, 9], [8, 10], [6, 8]]) ∧
    (∀ x ∈ labelPlaces samplePicture, x ∉ wirePlaces samplePicture) := by
  decide +kernel

/-- C116, refuted: every line comes after the nodes that it refers to. A wire that ends where a text has been put refers to the text, which is
declared after all lines. -/
theorem C116_refuted_order : ∃ (st : Style Int) (cs : List (Cmd Int)) (p : Pic Int),
    run st cs {} = .ok p ∧ ¬ DeclaredBefore (output (0, 0) p) := by
  refine ⟨sampleStyle false, [.text "n" (0, 0) false false none, .wire (0, 0) (0, -1) false false "" "#000000"], _, rfl, ?_⟩
  intro h
  obtain ⟨l, hl, hn⟩ := h [_, _] _ _ rfl 1 (by decide +kernel)
  rcases List.mem_cons.1 hl with h1 | h1
  · injection h1 with h1
    subst h1
    exact absurd hn (by decide +kernel)
  · rw [List.mem_singleton] at h1
    injection h1 with h1
    subst h1
    exact absurd hn (by decide +kernel)

/-- What TeX uses for a style: the last definition of its name. -/
def definition (styles : List StyleLine) (name : String) : Option String := (styles.reverse.find? (fun s => s.name == name)).map StyleLine.body

/-- The options of a line. -/
def EdgeLine.options : EdgeLine → String
  | .polygon o _ => o
  | .wire _ _ o _ _ => o

/-- C116, refuted: with TikZ styles every wire is drawn with its own looseness. The style is named after the color only: here the first wire is
drawn with the looseness of the second. -/
theorem C116_refuted_styles : ∃ (cs : List (Cmd Int)) (p q : Pic Int), run (sampleStyle true) cs {} = .ok p ∧ run (sampleStyle false) cs {} = .ok q ∧
    cs.flatMap drawn = [.wire (0, 0) (1, 1), .wire (0, 0) (2, 1)] ∧
    q.edgeLayer.map EdgeLine.options = ["-, draw=BLACK, line width=1pt, looseness=1.4849", "-, draw=BLACK, line width=1pt, looseness=0.9391"] ∧
    p.edgeLayer.map EdgeLine.options = ["style=black_wire", "style=black_wire"] ∧
    definition p.edgeStyles "black_wire" = some "-, draw=BLACK, looseness=0.9391, line width=1pt" := by
  refine ⟨[.wire (0, 0) (1, 1) false false "" "#000000", .wire (0, 0) (2, 1) false false "" "#000000"], _, _, rfl, rfl, rfl, ?_, ?_, ?_⟩
  all_goals decide +kernel

/-- C116, refuted: the options of a line are separated by commas. A style given for a wire runs into its looseness (tikz_backend.py:171-174): the arrow of a
measurement is not an option that TikZ knows. -/
theorem C116_refuted_options : ∃ (cs : List (Cmd Int)) (q : Pic Int), run (sampleStyle false) cs {} = .ok q ∧
    cs.flatMap drawn = [.wire (0, 0) (1, 1)] ∧
    q.edgeLayer.map EdgeLine.options = ["-, draw=BLACK, line width=1pt, ->looseness=1.4849"] := by
  refine ⟨[.wire (0, 0) (1, 1) false false "->" "#000000"], _, rfl, rfl, ?_⟩
  decide +kernel

end Tikz
end Lambeq
