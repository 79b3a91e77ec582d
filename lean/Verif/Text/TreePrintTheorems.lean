import Verif.Text.TreePrint
import Verif.Text.TreeNodesSpec

/-!
# C113: printed pregroup trees
-/

namespace Lambeq
namespace PTree
set_option linter.unusedSimpArgs false
set_option linter.unusedVariables false

/-! ## Specification -/

mutual
/-- The nodes with their distance from the root, parents before children, the children in order. -/
def preorder (d : Nat) : PTree → List (Nat × PTree)
  | node w i t cs => (d, node w i t cs) :: preorders (d + 1) cs
def preorders (d : Nat) : List PTree → List (Nat × PTree)
  | [] => []
  | c :: cs => preorder d c ++ preorders d cs
end

/-- There is a path down from the root with that many nodes. -/
inductive HasPath : Nat → PTree → Prop
  | one (t : PTree) : HasPath 1 t
  | down {n : Nat} {t c : PTree} (h : c ∈ t.children) (p : HasPath n c) : HasPath (n + 1) t

/-- The trees have the same shape, and their nodes print alike. -/
inductive SameLabels : PTree → PTree → Prop
  | mk (a b : PTree) : label a = label b → List.Forall₂ SameLabels a.children b.children → SameLabels a b

/-- All nodes print on one line. -/
def OneLine (t : PTree) : Prop := ∀ s ∈ t.subs, '\n' ∉ label s

/-- The type is not empty, and its names can be told from its string inside brackets. -/
def PlainTy (t : Ty) : Prop := CleanTy t ∧ ∀ o ∈ t, '(' ∉ o.name.toList

/-! ## Lines -/

theorem splitLines_cons (s : List Char) : ∃ h t, splitLines s = h :: t := by
  induction s with
  | nil => exact ⟨_, _, rfl⟩
  | cons c s ih =>
    obtain ⟨h, t, e⟩ := ih
    rw [splitLines, e]
    split
    · exact ⟨_, _, rfl⟩
    · exact ⟨_, _, rfl⟩

theorem splitLines_append (x : List Char) (hx : '\n' ∉ x) (y : List Char) (h : List Char) (t : List (List Char)) (hy : splitLines y = h :: t) :
    splitLines (x ++ y) = (x ++ h) :: t := by
  induction x with
  | nil => simpa using hy
  | cons c x ih =>
    simp only [List.mem_cons, not_or] at hx
    rw [List.cons_append, splitLines, if_neg (fun e => hx.1 e.symm), ih hx.2]
    rfl

theorem splitLines_newline (y : List Char) : splitLines ('\n' :: y) = [] :: splitLines y := by rw [splitLines, if_pos rfl]

/-- A line and lines under it. -/
def joinLines (ls : List (List Char)) : List Char := (ls.map (fun m => '\n' :: m)).flatten

theorem splitLines_join (x : List Char) (hx : '\n' ∉ x) (ls : List (List Char)) (h : ∀ l ∈ ls, '\n' ∉ l) : splitLines (x ++ joinLines ls) = x :: ls := by
  induction ls generalizing x with
  | nil =>
    have := splitLines_append x hx [] [] [] rfl
    simpa [joinLines] using this
  | cons l ls ih =>
    have e : joinLines (l :: ls) = '\n' :: (l ++ joinLines ls) := by simp [joinLines]
    rw [e, splitLines_append x hx _ [] (l :: ls)]
    · simp
    · rw [splitLines_newline, ih l (h l (by simp)) (fun m hm => h m (by simp [hm]))]

mutual
/-- The lines of a tree. -/
def lines : PTree → List (List Char)
  | node w i t cs => label (node w i t cs) :: liness cs
def liness : List PTree → List (List Char)
  | [] => []
  | c :: cs => shift cs.isEmpty (lines c) ++ liness cs
/-- The lines of a child, with what comes before them. -/
def shift (last : Bool) : List (List Char) → List (List Char)
  | [] => []
  | l :: ls => ((if last then '└' else '├') :: ' ' :: l) :: ls.map (fun m => (if last then ' ' else '│') :: ' ' :: m)
end

theorem lines_ne (t : PTree) : ∃ l ls, lines t = l :: ls := by cases t; exact ⟨_, _, by rw [lines]⟩

theorem shift_mem (b : Bool) (ls : List (List Char)) (h : ∀ l ∈ ls, '\n' ∉ l) : ∀ l ∈ shift b ls, '\n' ∉ l := by
  cases ls with
  | nil => simp [shift]
  | cons l ls =>
    intro m hm
    simp only [shift, List.mem_cons, List.mem_map] at hm
    rcases hm with rfl | ⟨k, hk, rfl⟩
    · have := h l (by simp)
      cases b <;> simpa using this
    · have := h k (by simp [hk])
      cases b <;> simpa using this

mutual
theorem lines_one (t : PTree) (h : OneLine t) : ∀ l ∈ lines t, '\n' ∉ l := by
  match t with
  | node w i ty cs =>
    intro l hl
    rw [lines] at hl
    rcases List.mem_cons.1 hl with rfl | hl
    · exact h _ (by rw [subs]; simp)
    · exact liness_one cs (fun s hs => h s (by rw [subs]; simp [hs])) l hl
theorem liness_one (cs : List PTree) (h : ∀ s ∈ subss cs, '\n' ∉ label s) : ∀ l ∈ liness cs, '\n' ∉ l := by
  match cs with
  | [] => simp [liness]
  | c :: cs =>
    intro l hl
    rw [liness] at hl
    rcases List.mem_append.1 hl with hl | hl
    · exact shift_mem _ _ (lines_one c (fun s hs => h s (by rw [subss]; simp [hs]))) l hl
    · exact liness_one cs (fun s hs => h s (by rw [subss]; simp [hs])) l hl
end

theorem block_lines (b : Bool) (t : PTree) (s : List Char) (h : splitLines s = lines t) : block b s = joinLines (shift b (lines t)) := by
  obtain ⟨l, ls, e⟩ := lines_ne t
  rw [block, h, e]
  simp only [shift, joinLines, List.map_cons, List.flatten_cons, List.map_map]
  rfl

mutual
theorem repr_lines (t : PTree) (h : OneLine t) : splitLines (treeRepr t) = lines t := by
  match t with
  | node w i ty cs =>
    have hcs : ∀ s ∈ subss cs, '\n' ∉ label s := fun s hs => h s (by rw [subs]; simp [hs])
    rw [treeRepr, reprs_lines cs hcs, lines]
    exact splitLines_join _ (h _ (by rw [subs]; simp)) _ (liness_one cs hcs)
theorem reprs_lines (cs : List PTree) (h : ∀ s ∈ subss cs, '\n' ∉ label s) : treeReprs cs = joinLines (liness cs) := by
  match cs with
  | [] => simp [treeReprs, liness, joinLines]
  | c :: cs =>
    rw [treeReprs, liness, block_lines _ c _ (repr_lines c (fun s hs => h s (by rw [subss]; simp [hs]))),
      reprs_lines cs (fun s hs => h s (by rw [subss]; simp [hs]))]
    simp [joinLines]
end

/-! ## One line for each node -/

theorem shift_forall (b : Bool) (d : Nat) (xs : List (Nat × PTree)) (ls : List (List Char))
    (h : List.Forall₂ (fun (x : Nat × PTree) l => ∃ pre : List Char, pre.length = 2 * (x.1 - d) ∧ d ≤ x.1 ∧ l = pre ++ label x.2) xs ls) (d' : Nat) (hd : d = d' + 1) :
    List.Forall₂ (fun (x : Nat × PTree) l => ∃ pre : List Char, pre.length = 2 * (x.1 - d') ∧ d' + 1 ≤ x.1 ∧ l = pre ++ label x.2) xs (shift b ls) := by
  have gen : ∀ (f : List Char → List Char), (∀ l, ∃ a c, f l = a :: c :: l) → ∀ (xs : List (Nat × PTree)) (ls : List (List Char)),
      List.Forall₂ (fun (x : Nat × PTree) l => ∃ pre : List Char, pre.length = 2 * (x.1 - d) ∧ d ≤ x.1 ∧ l = pre ++ label x.2) xs ls →
      List.Forall₂ (fun (x : Nat × PTree) l => ∃ pre : List Char, pre.length = 2 * (x.1 - d') ∧ d' + 1 ≤ x.1 ∧ l = pre ++ label x.2) xs (ls.map f) := by
    intro f hf xs ls h
    induction h with
    | nil => exact .nil
    | cons h1 h2 ih =>
      refine .cons ?_ ih
      obtain ⟨pre, e1, e2, e3⟩ := h1
      obtain ⟨a, c, e⟩ := hf _
      exact ⟨a :: c :: pre, by simp only [List.length_cons]; omega, by omega, by rw [e, e3]; rfl⟩
  cases h with
  | nil => exact .nil
  | cons h1 h2 =>
    rw [shift]
    exact .cons (by
      obtain ⟨pre, e1, e2, e3⟩ := h1
      exact ⟨(if b then '└' else '├') :: ' ' :: pre, by simp only [List.length_cons]; omega, by omega, by rw [e3]; rfl⟩) (gen _ (fun l => ⟨_, _, rfl⟩) _ _ h2)

mutual
theorem lines_preorder (d : Nat) (t : PTree) :
    List.Forall₂ (fun (x : Nat × PTree) l => ∃ pre : List Char, pre.length = 2 * (x.1 - d) ∧ d ≤ x.1 ∧ l = pre ++ label x.2) (preorder d t) (lines t) := by
  match t with
  | node w i ty cs =>
    rw [preorder, lines]
    refine .cons ⟨[], by simp, le_refl _, rfl⟩ ?_
    exact (liness_preorder d cs).imp (fun x l ⟨pre, h1, h2, h3⟩ => ⟨pre, h1, by omega, h3⟩)
theorem liness_preorder (d : Nat) (cs : List PTree) :
    List.Forall₂ (fun (x : Nat × PTree) l => ∃ pre : List Char, pre.length = 2 * (x.1 - d) ∧ d + 1 ≤ x.1 ∧ l = pre ++ label x.2) (preorders (d + 1) cs) (liness cs) := by
  match cs with
  | [] => rw [preorders, liness]; exact .nil
  | c :: cs =>
    rw [preorders, liness]
    exact List.rel_append (shift_forall cs.isEmpty (d + 1) _ _ (lines_preorder (d + 1) c) d rfl) (liness_preorder d cs)
end

/-- **C113 (lines).** If no node prints a newline, `draw` prints one line for each node, parents before children and children in order; the line
is that of the node, after two characters for every step from the root. -/
theorem C113_lines (t : PTree) (h : OneLine t) :
    List.Forall₂ (fun (x : Nat × PTree) line => ∃ pre : List Char, pre.length = 2 * x.1 ∧ line = pre ++ label x.2) (preorder 0 t) (splitLines (treeRepr t)) := by
  rw [repr_lines t h]
  exact (lines_preorder 0 t).imp (fun x l ⟨pre, h1, _, h3⟩ => ⟨pre, by simpa using h1, h3⟩)

/-! ## The tree can be told from its lines -/

/-- The line begins a child. -/
def Begins (l : List Char) : Prop := ∃ r, l = '└' :: r ∨ l = '├' :: r

theorem liness_begin (cs : List PTree) : liness cs = [] ∨ ∃ l ls, liness cs = l :: ls ∧ Begins l := by
  cases cs with
  | nil => left; rw [liness]
  | cons c cs =>
    right
    obtain ⟨l, ls, e⟩ := lines_ne c
    rw [liness, e, shift]
    refine ⟨_, _, rfl, ' ' :: l, ?_⟩
    cases cs.isEmpty <;> simp

theorem split_at (b b' : Bool) (ls ms : List (List Char)) (xs ys : List (List Char)) (hx : xs = [] ∨ ∃ l ls, xs = l :: ls ∧ Begins l)
    (hy : ys = [] ∨ ∃ l ls, ys = l :: ls ∧ Begins l)
    (h : ls.map (fun m => (if b then ' ' else '│') :: ' ' :: m) ++ xs = ms.map (fun m => (if b' then ' ' else '│') :: ' ' :: m) ++ ys) : ls = ms ∧ xs = ys := by
  have no : ∀ (b : Bool) (m : List Char), ¬ Begins ((if b then ' ' else '│') :: ' ' :: m) := by
    intro b m ⟨r, hr⟩
    cases b <;> simp at hr
  induction ls generalizing ms with
  | nil =>
    cases ms with
    | nil => exact ⟨rfl, by simpa using h⟩
    | cons m ms =>
      exfalso
      simp only [List.map_nil, List.nil_append, List.map_cons, List.cons_append] at h
      rcases hx with rfl | ⟨l, ls, rfl, hl⟩
      · simp at h
      · rw [List.cons.injEq] at h
        exact no b' m (h.1 ▸ hl)
  | cons l ls ih =>
    cases ms with
    | nil =>
      exfalso
      simp only [List.map_nil, List.nil_append, List.map_cons, List.cons_append] at h
      rcases hy with rfl | ⟨k, ks, rfl, hk⟩
      · simp at h
      · rw [List.cons.injEq] at h
        exact no b l (h.1 ▸ hk)
    | cons m ms =>
      simp only [List.map_cons, List.cons_append, List.cons.injEq] at h
      obtain ⟨⟨h1, h2, h3⟩, h4⟩ := h
      obtain ⟨e1, e2⟩ := ih ms h4
      exact ⟨by rw [h3, e1], e2⟩

mutual
theorem lines_inj (t u : PTree) (h : lines t = lines u) : SameLabels t u := by
  match t, u with
  | node w i ty cs, node w' i' ty' ds =>
    rw [lines, lines, List.cons.injEq] at h
    exact .mk _ _ h.1 (liness_inj cs ds h.2)
theorem liness_inj (cs ds : List PTree) (h : liness cs = liness ds) : List.Forall₂ SameLabels cs ds := by
  match cs, ds with
  | [], [] => exact .nil
  | [], d :: ds =>
    obtain ⟨l, ls, e⟩ := lines_ne d
    rw [liness, liness, e, shift] at h
    simp at h
  | c :: cs, [] =>
    obtain ⟨l, ls, e⟩ := lines_ne c
    rw [liness, liness, e, shift] at h
    simp at h
  | c :: cs, d :: ds =>
    obtain ⟨l, ls, e⟩ := lines_ne c
    obtain ⟨m, ms, e'⟩ := lines_ne d
    rw [liness, liness, e, e', shift, shift, List.cons_append, List.cons_append, List.cons.injEq] at h
    obtain ⟨h1, h2⟩ := h
    simp only [List.cons.injEq, true_and] at h1
    obtain ⟨h3, h4⟩ := split_at _ _ ls ms _ _ (liness_begin cs) (liness_begin ds) h2
    exact .cons (lines_inj c d (by rw [e, e', h1.2, h3])) (liness_inj cs ds h4)
end

/-- **C113 (shape).** If no node prints a newline, trees that `draw` prints alike have the same shape, and their nodes print alike. -/
theorem C113_shape (t u : PTree) (ht : OneLine t) (hu : OneLine u) (h : treeRepr t = treeRepr u) : SameLabels t u :=
  lines_inj t u (by rw [← repr_lines t ht, ← repr_lines u hu, h])

/-! ## The node can be told from its line -/

theorem obStr_plain (o : Ob) (h : '(' ∉ o.name.toList) : '(' ∉ obStr o := by
  simp only [obStr, List.mem_append, List.mem_flatten, List.mem_replicate, not_or]
  refine ⟨⟨h, ?_⟩, ?_⟩
  · rintro ⟨l, ⟨_, rfl⟩, hl⟩; simp at hl
  · rintro ⟨l, ⟨_, rfl⟩, hl⟩; simp at hl

theorem tyStr_plain (t : Ty) (h : PlainTy t) : '(' ∉ tyStr t := by
  obtain ⟨⟨hne, _⟩, h⟩ := h
  cases t with
  | nil => simp at hne
  | cons o os =>
    simp only [tyStr, List.mem_append, List.mem_flatten, List.mem_map, not_or]
    refine ⟨obStr_plain o (h o (by simp)), ?_⟩
    rintro ⟨l, ⟨p, hp, rfl⟩, hl⟩
    have := obStr_plain p (h p (by simp [hp]))
    simp [this] at hl

theorem last_split {α : Type} (c : α) (a a' b b' : List α) (hb : c ∉ b) (hb' : c ∉ b') (h : a ++ c :: b = a' ++ c :: b') : a = a' ∧ b = b' := by
  rcases List.append_eq_append_iff.1 h with ⟨m, h1, h2⟩ | ⟨m, h1, h2⟩
  · cases m with
    | nil => simp at h1 h2; exact ⟨h1.symm, h2⟩
    | cons x m =>
      exfalso
      rw [List.cons_append, List.cons.injEq] at h2
      exact hb (by rw [h2.2]; simp)
  · cases m with
    | nil => simp at h1 h2; exact ⟨h1, h2.symm⟩
    | cons x m =>
      exfalso
      rw [List.cons_append, List.cons.injEq] at h2
      exact hb' (by rw [h2.2]; simp)

/-- **C113 (labels).** The word, the index and the type can be told from what a node prints, if the names in the type have no dot, at sign or
bracket. -/
theorem C113_labels (w w' : String) (i i' : Nat) (t t' : Ty) (cs cs' : List PTree) (ht : PlainTy t) (ht' : PlainTy t')
    (h : label (node w i t cs) = label (node w' i' t' cs')) : w = w' ∧ i = i' ∧ t = t' := by
  have e : ∀ (w : String) (i : Nat) (t : Ty) (cs : List PTree), label (node w i t cs) =
      (w.toList ++ '_' :: (Nat.toDigits 10 i ++ [' '])) ++ '(' :: (tyStr t ++ [')']) := by
    intro w i t cs; simp [label]
  rw [e, e] at h
  obtain ⟨h1, h2⟩ := last_split '(' _ _ _ _ (by simpa using tyStr_plain t ht) (by simpa using tyStr_plain t' ht') h
  have hd : ∀ i : Nat, '_' ∉ Nat.toDigits 10 i ++ [' '] := by
    intro i hi
    rcases List.mem_append.1 hi with hi | hi
    · have := Nat.isDigit_of_mem_toDigits (b := 10) (n := i) (by omega) (by omega) hi
      simp [Char.isDigit] at this
    · simp at hi
  obtain ⟨h3, h4⟩ := last_split '_' _ _ _ _ (hd i) (hd i') h1
  refine ⟨String.toList_injective h3, ?_, ?_⟩
  · have := List.append_cancel_right h4
    have := congrArg (Nat.ofDigitChars 10 · 0) this
    simpa using this
  · have := List.append_cancel_right h2
    rw [← strToTy_tyStr t ht.1, ← strToTy_tyStr t' ht'.1, this]

mutual
theorem same_eq (t u : PTree) (ht : ∀ s ∈ t.subs, PlainTy s.typ) (hu : ∀ s ∈ u.subs, PlainTy s.typ) (h : SameLabels t u) : t = u := by
  match t, u with
  | node w i ty cs, node w' i' ty' ds =>
    cases h with
    | mk _ _ h1 h2 =>
      obtain ⟨rfl, rfl, rfl⟩ := C113_labels w w' i i' ty ty' cs ds (ht (node w i ty cs) (by rw [subs]; simp)) (hu (node w' i' ty' ds) (by rw [subs]; simp)) h1
      have := sames_eq cs ds (fun s hs => ht s (by rw [subs]; simp [hs])) (fun s hs => hu s (by rw [subs]; simp [hs])) h2
      rw [this]
theorem sames_eq (cs ds : List PTree) (ht : ∀ s ∈ subss cs, PlainTy s.typ) (hu : ∀ s ∈ subss ds, PlainTy s.typ) (h : List.Forall₂ SameLabels cs ds) : cs = ds := by
  match cs, ds, h with
  | [], [], _ => rfl
  | c :: cs, d :: ds, .cons h1 h2 =>
    rw [same_eq c d (fun s hs => ht s (by rw [subss]; simp [hs])) (fun s hs => hu s (by rw [subss]; simp [hs])) h1,
      sames_eq cs ds (fun s hs => ht s (by rw [subss]; simp [hs])) (fun s hs => hu s (by rw [subss]; simp [hs])) h2]
end

/-- **C113 (readable).** `draw` prints different trees differently, if words have no newline and the names in types no newline, dot, at sign or
bracket. -/
theorem C113_readable (t u : PTree) (ht : OneLine t) (hu : OneLine u) (ht' : ∀ s ∈ t.subs, PlainTy s.typ) (hu' : ∀ s ∈ u.subs, PlainTy s.typ)
    (h : treeRepr t = treeRepr u) : t = u := same_eq t u ht' hu' (C113_shape t u ht hu h)

/-! ## Height -/

theorem mem_levelss {cs : List PTree} {c : PTree} (h : c ∈ cs) : c.levels ≤ levelss cs := by
  induction cs with
  | nil => simp at h
  | cons d cs ih =>
    rw [levelss]
    rcases List.mem_cons.1 h with rfl | h
    · omega
    · have := ih h; omega

theorem levels_children (t : PTree) : t.levels = levelss t.children + 1 := by cases t; rw [levels]; rfl

theorem levelss_flatMap (l : List PTree) (n : Nat) (h : ∀ t ∈ l, t.levels ≤ n + 1) : ∀ t ∈ l.flatMap children, t.levels ≤ n := by
  intro t ht
  obtain ⟨s, hs, hc⟩ := List.mem_flatMap.1 ht
  have := mem_levelss hc
  have := h s hs
  have := levels_children s
  omega

theorem heightLoop_eq (n : Nat) : ∀ (l : List PTree) (h m : Nat), l ≠ [] → levelss l = m + 1 → m < n → heightLoop n l h = h + m := by
  induction n with
  | zero => intro l h m _ _ hm; omega
  | succ n ih =>
    intro l h m hne hl hm
    have step : levelss (l.flatMap children) = m := by
      have le1 : ∀ (l : List PTree), levelss l = (if l.isEmpty then 0 else levelss (l.flatMap children) + 1) := by
        intro l
        have app : ∀ a b : List PTree, levelss (a ++ b) = max (levelss a) (levelss b) := by
          intro a b
          induction a with
          | nil => simp [levelss]
          | cons x a ih => rw [List.cons_append, levelss, levelss, ih]; omega
        induction l with
        | nil => simp [levelss]
        | cons c l ih =>
          rw [levelss, levels_children, ih, List.flatMap_cons, app]
          cases l with
          | nil => simp [levelss]
          | cons d l => simp only [List.isEmpty_cons, Bool.false_eq_true, if_false]; omega
      have := le1 l
      rw [if_neg (by simpa using hne), hl] at this
      omega
    rw [heightLoop, if_neg (by simpa using hne)]
    by_cases he : l.flatMap children = []
    · rw [he] at step ⊢
      simp only [levelss] at step
      subst step
      cases n <;> simp [heightLoop]
    · rw [if_neg (by simpa using he)]
      have hm0 : ∃ k, m = k + 1 := by
        cases m with
        | zero =>
          exfalso
          cases hc : l.flatMap children with
          | nil => exact he hc
          | cons c r =>
            rw [hc, levelss, levels_children] at step
            omega
        | succ k => exact ⟨k, rfl⟩
      obtain ⟨k, rfl⟩ := hm0
      rw [ih _ (h + 1) k he step (by omega)]
      omega

/-- **C113 (rounds).** The loop ends by itself: more rounds change nothing. -/
theorem C113_height_rounds (t : PTree) (n : Nat) (h : t.levels ≤ n) : heightLoop n [t] 1 = t.height := by
  have e : levelss [t] = levelss t.children + 1 := by rw [levelss, levelss, levels_children]; omega
  have e2 := levels_children t
  rw [height, heightLoop_eq n [t] 1 _ (by simp) e (by omega), heightLoop_eq t.levels [t] 1 _ (by simp) e (by omega)]

theorem height_levels (t : PTree) : t.height = t.levels := by
  have e : levelss [t] = levelss t.children + 1 := by rw [levelss, levelss, levels_children]; omega
  have e2 := levels_children t
  rw [height, heightLoop_eq t.levels [t] 1 _ (by simp) e (by omega)]
  omega

theorem levels_path : ∀ (n : Nat) (t : PTree), t.levels = n → HasPath n t := by
  intro n
  induction n with
  | zero => intro t h; rw [levels_children] at h; omega
  | succ n ih =>
    intro t h
    rw [levels_children] at h
    have max_mem : ∀ l : List PTree, l ≠ [] → ∃ c ∈ l, c.levels = levelss l := by
      intro l
      induction l with
      | nil => simp
      | cons c l ihl =>
        intro _
        rw [levelss]
        by_cases hl : l = []
        · subst hl; exact ⟨c, by simp, by simp [levelss]⟩
        · obtain ⟨d, hd, e⟩ := ihl hl
          rcases Nat.le_total c.levels (levelss l) with h1 | h1
          · exact ⟨d, by simp [hd], by omega⟩
          · exact ⟨c, by simp, by omega⟩
    by_cases hc : t.children = []
    · rw [hc, levelss] at h
      have : n = 0 := by omega
      subst this
      exact .one t
    · obtain ⟨c, hc, e⟩ := max_mem _ hc
      exact .down hc (ih c (by omega))

theorem path_levels {n : Nat} {t : PTree} (h : HasPath n t) : n ≤ t.levels := by
  induction h with
  | one t => rw [levels_children]; omega
  | down hc _ ih => have := mem_levelss hc; rw [levels_children]; omega

/-- **C113 (height).** The height is the number of nodes on the longest path down from the root. -/
theorem C113_height (t : PTree) : HasPath t.height t ∧ ∀ n, HasPath n t → n ≤ t.height := by
  rw [height_levels]
  exact ⟨levels_path _ t rfl, fun n h => path_levels h⟩

/-! ## Equality -/

/-- No two children of one node have the same index. -/
def DistinctSiblings (t : PTree) : Prop := ∀ s ∈ t.subs, (s.children.map ind).Nodup

theorem sub_children {t s : PTree} (h : s ∈ t.children) {x : PTree} (hx : x ∈ s.subs) : x ∈ t.subs := by
  obtain ⟨w, i, ty, cs⟩ := t
  rw [subs]
  simp only [children] at h
  refine List.mem_cons_of_mem _ ?_
  clear w i ty
  induction cs with
  | nil => simp at h
  | cons c cs ih =>
    rw [subss]
    rcases List.mem_cons.1 h with rfl | h
    · simp [hx]
    · simp [ih h]

/-- **C113 (equal trees are the same).** If `a == b`, their parents have the same index and they are the same tree up to the order of
children. -/
theorem C113_eq_same (p q : Option Nat) (a b : PTree) (h : eqTree p q a b = true) : p = q ∧ SameTree a b := by
  have main : ∀ (n : Nat) (p q : Option Nat) (a b : PTree), eqAux n p q a b = true → p = q ∧ SameTree a b := by
    intro n
    induction n with
    | zero => intro p q a b h; simp [eqAux] at h
    | succ n ih =>
      intro p q a b h
      obtain ⟨w, i, ty, cs⟩ := a
      obtain ⟨w', i', ty', ds⟩ := b
      simp only [eqAux, word, ind, typ, children, Bool.and_eq_true, beq_iff_eq] at h
      obtain ⟨⟨⟨⟨rfl, rfl⟩, rfl⟩, rfl⟩, hl, hz⟩ := h
      refine ⟨rfl, ?_⟩
      have hp := List.perm_insertionSort (fun x y : PTree => x.ind ≤ y.ind) cs
      have hq := List.perm_insertionSort (fun x y : PTree => x.ind ≤ y.ind) ds
      have hf : List.Forall₂ SameTree (cs.insertionSort (fun x y => x.ind ≤ y.ind)) (ds.insertionSort (fun x y => x.ind ≤ y.ind)) := by
        have hl' : (cs.insertionSort (fun x y => x.ind ≤ y.ind)).length = (ds.insertionSort (fun x y => x.ind ≤ y.ind)).length := by
          rw [hp.length_eq, hq.length_eq, hl]
        rw [List.forall₂_iff_zip]
        refine ⟨hl', ?_⟩
        intro x y hxy
        exact (ih _ _ _ _ (List.all_eq_true.1 hz _ hxy)).2
      have hc : Relation.Comp (List.Forall₂ SameTree) List.Perm (cs.insertionSort (fun x y => x.ind ≤ y.ind)) ds := ⟨_, hf, hq⟩
      rw [List.forall₂_comp_perm_eq_perm_comp_forall₂] at hc
      obtain ⟨l, h1, h2⟩ := hc
      exact .mk w i ty cs l ds (hp.symm.trans h1) h2
  exact main _ p q a b h

theorem same_ind {a b : PTree} (h : SameTree a b) : a.ind = b.ind := by cases h; rfl

theorem forall_inds {cs ds : List PTree} (h : List.Forall₂ SameTree cs ds) : cs.map ind = ds.map ind := by
  induction h with
  | nil => rfl
  | cons h1 _ ih => rw [List.map_cons, List.map_cons, same_ind h1, ih]

theorem sorted_same (cs cs' ds : List PTree) (hn : (cs.map ind).Nodup) (hp : cs.Perm cs') (hf : List.Forall₂ SameTree cs' ds) :
    List.Forall₂ SameTree (cs.insertionSort (fun x y => x.ind ≤ y.ind)) (ds.insertionSort (fun x y => x.ind ≤ y.ind)) := by
  have sorted : ∀ l : List PTree, (l.insertionSort (fun x y => x.ind ≤ y.ind)).Pairwise (fun x y => x.ind ≤ y.ind) := by
    have : IsTrans PTree (fun x y => x.ind ≤ y.ind) := ⟨fun _ _ _ h1 h2 => le_trans h1 h2⟩
    have : Std.Total (fun x y : PTree => x.ind ≤ y.ind) := ⟨fun x y => le_total x.ind y.ind⟩
    exact fun l => List.pairwise_insertionSort _ l
  have hc : Relation.Comp (List.Forall₂ SameTree) List.Perm cs' (ds.insertionSort (fun x y => x.ind ≤ y.ind)) :=
    ⟨ds, hf, (List.perm_insertionSort _ ds).symm⟩
  rw [List.forall₂_comp_perm_eq_perm_comp_forall₂] at hc
  obtain ⟨l, h1, h2⟩ := hc
  have hl : l.Pairwise (fun x y => x.ind ≤ y.ind) := by
    have := sorted ds
    rw [← List.pairwise_map (f := ind) (R := (· ≤ ·)), ← forall_inds h2, List.pairwise_map] at this
    exact this
  have hperm : (cs.insertionSort (fun x y => x.ind ≤ y.ind)).Perm l := (List.perm_insertionSort _ cs).trans (hp.trans h1)
  have : cs.insertionSort (fun x y => x.ind ≤ y.ind) = l := by
    refine hperm.eq_of_pairwise ?_ (sorted cs) hl
    intro x y hx hy hxy hyx
    have hx' := (List.mem_insertionSort (fun x y : PTree => x.ind ≤ y.ind)).1 hx
    have hy' := (List.mem_insertionSort (fun x y : PTree => x.ind ≤ y.ind)).1 (hperm.mem_iff.2 hy)
    exact List.inj_on_of_nodup_map hn hx' hy' (le_antisymm hxy hyx)
  rw [this]; exact h2

/-- **C113 (the same trees are equal).** Trees that are the same up to the order of children are equal, if the indices of their parents are
the same and no two children of one node have the same index. -/
theorem C113_same_eq (p : Option Nat) (a b : PTree) (hn : DistinctSiblings a) (h : SameTree a b) : eqTree p p a b = true := by
  have main : ∀ (n : Nat) (p : Option Nat) (a b : PTree), a.levels ≤ n → DistinctSiblings a → SameTree a b → eqAux n p p a b = true := by
    intro n
    induction n with
    | zero => intro p a b hl; rw [levels_children] at hl; omega
    | succ n ih =>
      intro p a b hl hn h
      cases h with
      | mk w i ty cs cs' ds hp hf =>
        have hs := sorted_same cs cs' ds (hn (node w i ty cs) (by rw [subs]; simp)) hp hf
        simp only [eqAux, word, ind, typ, children, Bool.and_eq_true, beq_iff_eq, true_and, beq_self_eq_true]
        refine ⟨by rw [hp.length_eq, hf.length_eq], ?_⟩
        rw [List.all_eq_true]
        intro xy hxy
        have hx : xy.1 ∈ cs := (List.mem_insertionSort (fun x y : PTree => x.ind ≤ y.ind)).1 (List.of_mem_zip hxy).1
        refine ih _ _ _ ?_ ?_ ((List.forall₂_iff_zip.1 hs).2 hxy)
        · have := mem_levelss hx
          rw [levels_children] at hl
          simp only [children] at hl
          omega
        · exact fun s hs' => hn s (sub_children (t := node w i ty cs) hx hs')
  exact main _ p a b (le_refl _) hn h

/-! ## Examples -/

/-- `John gave Mary a flower`, as in the documentation. -/
def demoGave : PTree := node "gave" 1 [⟨"s", 0⟩] [node "John" 0 [⟨"n", 0⟩] [], node "Mary" 2 [⟨"n", 0⟩] [],
  node "a" 3 [⟨"n", 0⟩] [node "flower" 4 [⟨"n", 0⟩] []]]

/-- The same tree with its children in another order. -/
def demoGave2 : PTree := node "gave" 1 [⟨"s", 0⟩] [node "a" 3 [⟨"n", 0⟩] [node "flower" 4 [⟨"n", 0⟩] []],
  node "John" 0 [⟨"n", 0⟩] [], node "Mary" 2 [⟨"n", 0⟩] []]

example : splitLines (treeRepr demoGave) =
    ["gave_1 (s)".toList, "├ John_0 (n)".toList, "├ Mary_2 (n)".toList, "└ a_3 (n)".toList, "  └ flower_4 (n)".toList] := by decide +kernel

example : OneLine demoGave ∧ (∀ s ∈ demoGave.subs, PlainTy s.typ) ∧ DistinctSiblings demoGave ∧ demoGave.height = 3 := by
  have one : ∀ l : List PTree, (∀ s ∈ l, '\n' ∉ label s) ↔ l.all (fun s => !(label s).contains '\n') = true := by
    intro l; simp [List.all_eq_true]
  refine ⟨(one _).2 (by decide +kernel), ?_, ?_, by decide +kernel⟩
  · intro s hs
    simp only [demoGave, subs, subss, List.append_nil, List.cons_append, List.nil_append, List.mem_cons, List.not_mem_nil, or_false] at hs
    rcases hs with rfl | rfl | rfl | rfl | rfl <;> refine ⟨⟨by simp [typ], ?_⟩, ?_⟩ <;> intro o ho <;>
      simp only [typ, List.mem_singleton] at ho <;> subst ho <;> simp
  · intro s hs
    simp only [demoGave, subs, subss, List.append_nil, List.cons_append, List.nil_append, List.mem_cons, List.not_mem_nil, or_false] at hs
    rcases hs with rfl | rfl | rfl | rfl | rfl <;> simp [children, ind]

example : eqTree none none demoGave demoGave2 = true ∧ eqTree none (some 7) demoGave demoGave2 = false ∧ treeRepr demoGave ≠ treeRepr demoGave2 := by
  refine ⟨by decide +kernel, by decide +kernel, by decide +kernel⟩

/-- **C113 (refuted: newlines).** A word with a newline prints like a leaf under it. -/
theorem C113_refuted_newline : treeRepr (node "a_0 (s)\n└ b" 1 [⟨"n", 0⟩] []) = treeRepr (node "a" 0 [⟨"s", 0⟩] [node "b" 1 [⟨"n", 0⟩] []]) := by
  decide +kernel

/-- **C113 (refuted: brackets).** A word and a name in a type, each with a bracket, print alike. -/
theorem C113_refuted_brackets : label (node "a" 0 [⟨"n_1 (n", 0⟩] []) = label (node "a_0 (n" 1 [⟨"n", 0⟩] []) := by
  decide +kernel

/-- **C113 (refuted: equal indices).** If two children of a node have the same index, the order of the children counts. -/
theorem C113_refuted_equal_indices :
    let x : PTree := node "b" 1 [⟨"n", 0⟩] []
    let y : PTree := node "b" 1 [⟨"n", 1⟩] []
    SameTree (node "a" 0 [⟨"s", 0⟩] [x, y]) (node "a" 0 [⟨"s", 0⟩] [y, x]) ∧
    eqTree none none (node "a" 0 [⟨"s", 0⟩] [x, y]) (node "a" 0 [⟨"s", 0⟩] [y, x]) = false := by
  refine ⟨.mk _ _ _ _ _ _ (List.Perm.swap _ _ _) (.cons (.mk _ _ _ _ _ _ (List.Perm.refl _) .nil) (.cons (.mk _ _ _ _ _ _ (List.Perm.refl _) .nil) .nil)), ?_⟩
  decide +kernel

/-- **C113 (refuted: changed trees).** The string and the height are cached: after `merge` they are still those of the tree before. -/
theorem C113_refuted_stale :
    let c : Cached := ⟨node "red" 0 [⟨"n", 0⟩] [node "wine" 1 [⟨"n", 0⟩] []], none, none⟩
    let d := (c.draw.2.readHeight.2).mergeSelf
    d.draw.1 ≠ d.tree.treeRepr ∧ d.readHeight.1 = 2 ∧ d.tree.height = 1 := by
  refine ⟨by decide +kernel, by decide +kernel, by decide +kernel⟩

end PTree
end Lambeq
