import Verif.Grammar.Ty

/-!
# Properties of types: C01 (free monoid), C02 (adjoints), C03 (indexing)

The statements are about `RTy`, the verbatim model of the Python record and its methods.
`t.atoms` is `[*t]`, the observable sequence of atoms.
-/

namespace Lambeq
set_option linter.unusedSimpArgs false
open RTy

/-! ## C01 -/

/-- Everything a user can obtain from the public `Ty` API (the record constructor is used only
through `Ty()` and `Ty(name)`). -/
inductive RTy.Reach : RTy → Prop
  | empty : Reach RTy.empty
  | atom (name : String) : Reach (RTy.atom ⟨name, 0⟩)
  | tensor {a b} : Reach a → Reach b → Reach (RTy.tensor a b)
  | rotate (z : Int) {a} : Reach a → Reach (RTy.rotate z a)
  | slice (s e : Option Int) {a} : Reach a → Reach (RTy.slice a s e)
  | get (i : Int) {a o} : Reach a → RTy.get a i = .ok o → Reach o
  | rep (n : Nat) {a} : Reach a → Reach (RTy.rep a n)
  | insert (i : Int) {a b c} : Reach a → Reach b → RTy.insert a b i = .ok c → Reach c
  | replace (i : Int) {a b c} : Reach a → Reach b → RTy.replace a b i = .ok c → Reach c

theorem canon_tensor {a b : RTy} (ha : a.Canon) (hb : b.Canon) :
    (RTy.tensor a b).Canon ∧ (RTy.tensor a b).atoms = a.atoms ++ b.atoms := by
  rw [canon_iff] at ha hb
  rw [ha, hb, tensor_ofTy]
  exact ⟨canon_ofTy _, by simp [atoms_ofTy]⟩

theorem canon_rotate {a : RTy} (z : Int) (ha : a.Canon) :
    (RTy.rotate z a).Canon ∧ (RTy.rotate z a).atoms = Ty.rotate z a.atoms := by
  rw [canon_iff] at ha
  rw [ha, rotate_ofTy]
  exact ⟨canon_ofTy _, by simp [atoms_ofTy]⟩

theorem canon_eq_iff {a b : RTy} (ha : a.Canon) (hb : b.Canon) : a = b ↔ a.atoms = b.atoms := by
  constructor
  · rintro rfl; rfl
  · intro h; rw [(canon_iff a).1 ha, (canon_iff b).1 hb, h]

theorem empty_eq_ofTy : RTy.empty = ofTy [] := by simp [ofTy, fromIter]

theorem rep_ofTy (t : Ty) (n : Nat) : (ofTy t).rep n = ofTy (Ty.rep t n) := by
  have := tensorMany_ofTy [] (List.replicate n t)
  rw [← empty_eq_ofTy, List.map_replicate] at this
  simpa [RTy.rep, Ty.rep] using this

theorem objects_ofTy (t : Ty) : (ofTy t).objects = if t.length = 1 then [] else t.map RTy.atom := by
  match t with
  | [] => simp [ofTy, fromIter, RTy.empty, objects]
  | [o] => simp [ofTy, fromIter, RTy.atom, objects]
  | a :: b :: r => simp [ofTy, fromIter, objects]

theorem isEmpty_ofTy (t : Ty) : (ofTy t).isEmpty = t.isEmpty := by
  match t with
  | [] => simp [ofTy, fromIter, RTy.empty, objects, RTy.isEmpty, name]
  | [o] => simp [ofTy, fromIter, RTy.atom, objects, RTy.isEmpty, name]
  | a :: b :: r => simp [ofTy, fromIter, objects, RTy.isEmpty]

/-- C03 core: `insert` at a non-negative index (grammar.py:239-262). -/
theorem insert_ofTy (t o : Ty) (i : Nat) :
    RTy.insert (ofTy t) (ofTy o) i =
      if i ≤ t.length then .ok (ofTy (t.take i ++ o ++ t.drop i)) else .error .indexError := by
  unfold RTy.insert
  rw [len_ofTy, isEmpty_ofTy]
  by_cases h : i ≤ t.length
  · have h' : (i : Int) ≤ (t.length : Int) := by omega
    rw [if_neg (by simpa using h), if_pos h]
    match t, h with
    | [], h =>
      have : i = 0 := by simpa using h
      subst this; simp
    | x :: xs, h =>
      simp only [List.isEmpty_cons, Bool.false_eq_true, if_false]
      by_cases h0 : i = 0
      · subst h0; simp [tensor_ofTy]
      · rw [if_neg (by omega)]
        by_cases h1 : i = (x :: xs).length
        · rw [if_pos (by omega), tensor_ofTy]
          simp [h1]
        · rw [if_neg (by omega)]
          simp only [objects_ofTy]
          have hlen : ¬ (x :: xs).length = 1 := by
            intro hh; rw [hh] at h h1; omega
          rw [if_neg hlen, pySlice_map, pySlice_map, pySlice_nat_to, pySlice_nat_from, iter_ofTy]
          simp [ofTy]
  · rw [if_pos (by omega), if_neg h]

/-- C03 core: `replace` at a non-negative index (grammar.py:208-237). -/
theorem replace_ofTy (t o : Ty) (i : Nat) :
    RTy.replace (ofTy t) (ofTy o) i =
      if i < t.length then .ok (ofTy (t.take i ++ o ++ t.drop (i + 1)))
      else if i = t.length then .ok (ofTy (t.take (i - 1) ++ o))
      else .error .indexError := by
  unfold RTy.replace
  rw [len_ofTy, isEmpty_ofTy]
  by_cases h : i ≤ t.length
  · rw [if_neg (by omega)]
    match t, h with
    | [], h =>
      have : i = 0 := by simpa using h
      subst this; simp
    | [x], h =>
      simp only [objects_ofTy, List.isEmpty_cons, Bool.false_eq_true, if_false, List.length_singleton,
        if_true, List.length_nil, iter_ofTy]
      rw [if_neg (by omega)]
      by_cases h0 : i = 0
      · subst h0; simp [pySlice, ofTy]
      · have h1 : i = 1 := by simp at h; omega
        subst h1; simp [pySlice, ofTy]
    | x :: y :: xs, h =>
      have hl : ¬ (x :: y :: xs).length = 1 := by simp
      simp only [objects_ofTy, hl, List.isEmpty_cons, Bool.false_eq_true, if_false, List.length_map,
        iter_ofTy, pySlice_map]
      by_cases h0 : i = 0
      · subst h0
        rw [show (some 1 : Option Int) = some ((1 : Nat) : Int) from rfl, pySlice_nat_from]
        simp [ofTy]
      · rw [if_neg (by omega)]
        by_cases h1 : i = (x :: y :: xs).length
        · rw [if_pos (by omega), if_neg (show ¬ i < (x :: y :: xs).length by omega), if_pos h1]
          have : pySlice (x :: y :: xs) none (some (-1)) = (x :: y :: xs).take (i - 1) := by
            rw [h1]
            simp only [pySlice, clampIdx, List.drop_zero, Nat.sub_zero]
            congr 1
            rw [if_pos (by omega)]
            omega
          rw [this]; simp [ofTy]
        · rw [if_neg (by omega), if_pos (show i < (x :: y :: xs).length by omega)]
          rw [show ((i : Int) + 1) = ((i + 1 : Nat) : Int) by omega, pySlice_nat_to, pySlice_nat_from]
          simp [ofTy]
  · rw [if_pos (by omega), if_neg (by omega), if_neg (by omega)]

theorem fromIter_map_atom_canon (l : List RTy) (h : ∃ t : Ty, l = t.map RTy.atom) :
    (fromIter l).Canon := by
  obtain ⟨t, rfl⟩ := h; exact canon_ofTy t

theorem objects_atoms (t : Ty) : ∃ u : Ty, (ofTy t).objects = u.map RTy.atom := by
  rw [objects_ofTy]
  by_cases h : t.length = 1
  · exact ⟨[], by simp [h]⟩
  · exact ⟨t, by simp [h]⟩

theorem insert_canon {a b c : RTy} (i : Int) (ha : a.Canon) (hb : b.Canon)
    (h : RTy.insert a b i = .ok c) : c.Canon := by
  rw [canon_iff] at ha hb
  rw [ha, hb] at h
  unfold RTy.insert at h
  split at h
  · cases h
  split at h
  · cases h; exact canon_ofTy _
  split at h
  · cases h; rw [tensor_ofTy]; exact canon_ofTy _
  split at h
  · cases h; rw [tensor_ofTy]; exact canon_ofTy _
  · injection h with h; subst h
    obtain ⟨u, hu⟩ := objects_atoms a.atoms
    apply fromIter_map_atom_canon
    rw [hu, pySlice_map, pySlice_map, iter_ofTy]
    exact ⟨pySlice u none (some i) ++ b.atoms ++ pySlice u (some i) none, by simp⟩

theorem replace_canon {a b c : RTy} (i : Int) (ha : a.Canon) (hb : b.Canon)
    (h : RTy.replace a b i = .ok c) : c.Canon := by
  rw [canon_iff] at ha hb
  rw [ha, hb] at h
  obtain ⟨u, hu⟩ := objects_atoms a.atoms
  unfold RTy.replace at h
  simp only [hu, pySlice_map, iter_ofTy] at h
  split at h
  · cases h
  split at h
  · cases h; exact canon_ofTy _
  split at h
  · cases h; exact canon_ofTy _
  split at h
  · cases h; exact fromIter_map_atom_canon _ ⟨b.atoms ++ pySlice u (some 1) none, by simp⟩
  split at h
  · cases h; exact fromIter_map_atom_canon _ ⟨pySlice u none (some (-1)) ++ b.atoms, by simp⟩
  · cases h; exact fromIter_map_atom_canon _
      ⟨pySlice u none (some i) ++ b.atoms ++ pySlice u (some (i+1)) none, by simp⟩

theorem pyGet_mem {α : Type _} {l : List α} {i : Int} {x : α} (h : pyGet l i = .ok x) : x ∈ l := by
  unfold pyGet at h
  simp only at h
  generalize (if i < 0 then (l.length : Int) + i else i) = j at h
  split at h
  · cases h
  · cases hj : l[j.toNat]? with
    | none => simp [hj] at h
    | some y =>
      simp only [hj] at h
      cases h
      exact List.mem_of_getElem? hj

/-- **C01** Every type a user can build is in canonical form. -/
theorem C01_canonical {t : RTy} (h : t.Reach) : t.Canon := by
  induction h with
  | empty => exact Or.inl rfl
  | atom n => exact Or.inr (Or.inl ⟨_, rfl⟩)
  | tensor _ _ ha hb => exact (canon_tensor ha hb).1
  | rotate z _ ha => exact (canon_rotate z ha).1
  | slice s e _ ha =>
    rw [canon_iff] at ha; rw [ha, slice_ofTy]; exact canon_ofTy _
  | get i _ hg ha =>
    rw [canon_iff] at ha; rw [ha] at hg
    unfold RTy.get at hg; rw [iter_ofTy] at hg
    have := pyGet_mem hg
    rw [List.mem_map] at this
    obtain ⟨o, _, rfl⟩ := this
    exact Or.inr (Or.inl ⟨o, rfl⟩)
  | rep n _ ha =>
    rw [canon_iff] at ha; rw [ha, rep_ofTy]; exact canon_ofTy _
  | insert i _ _ h ha hb => exact insert_canon i ha hb h
  | replace i _ _ h ha hb => exact replace_canon i ha hb h

/-- **C01** Types form a monoid under `@`, `==` is equality of atom sequences, and `@`
concatenates atom sequences (so the monoid is free). -/
theorem C01_free_monoid {a b c : RTy} (ha : a.Reach) (hb : b.Reach) (hc : c.Reach) :
    RTy.tensor (RTy.tensor a b) c = RTy.tensor a (RTy.tensor b c)
    ∧ RTy.tensor RTy.empty a = a ∧ RTy.tensor a RTy.empty = a
    ∧ (RTy.tensor a b).atoms = a.atoms ++ b.atoms
    ∧ (RTy.tensor a b).len = a.len + b.len
    ∧ a.len = a.atoms.length
    ∧ (a = b ↔ a.atoms = b.atoms) := by
  have ha := C01_canonical ha
  have hb := C01_canonical hb
  have hc := C01_canonical hc
  refine ⟨?_, ?_, ?_, (canon_tensor ha hb).2, ?_, ?_, canon_eq_iff ha hb⟩
  · rw [(canon_iff a).1 ha, (canon_iff b).1 hb, (canon_iff c).1 hc]
    simp [tensor_ofTy]
  · rw [(canon_iff a).1 ha, empty_eq_ofTy, tensor_ofTy]; simp
  · rw [(canon_iff a).1 ha, empty_eq_ofTy, tensor_ofTy]; simp
  · rw [(canon_iff a).1 ha, (canon_iff b).1 hb, tensor_ofTy]; simp [len_ofTy]
  · rw [(canon_iff a).1 ha, len_ofTy, atoms_ofTy]

/-- Non-vacuity: `n.r @ s @ n.l` is reachable. -/
example : ∃ t : RTy, t.Reach ∧ t.atoms = [⟨"n", 1⟩, ⟨"s", 0⟩, ⟨"n", -1⟩] :=
  ⟨RTy.tensor (RTy.rotate 1 (RTy.atom ⟨"n", 0⟩))
      (RTy.tensor (RTy.atom ⟨"s", 0⟩) (RTy.rotate (-1) (RTy.atom ⟨"n", 0⟩))),
    .tensor (.rotate 1 (.atom "n")) (.tensor (.atom "s") (.rotate (-1) (.atom "n"))), by
      rw [show RTy.rotate 1 (RTy.atom ⟨"n", 0⟩) = ofTy [⟨"n", 1⟩] from by rw [rotate_atom]; rfl,
        show RTy.rotate (-1) (RTy.atom ⟨"n", 0⟩) = ofTy [⟨"n", -1⟩] from by rw [rotate_atom]; rfl,
        show RTy.atom ⟨"s", 0⟩ = ofTy [⟨"s", 0⟩] from rfl, tensor_ofTy, tensor_ofTy, atoms_ofTy]
      rfl⟩

/-! ## C02: adjoints -/

namespace Ty

theorem odd_or_even (z : Int) : z % 2 = 1 ∨ z % 2 = 0 := by omega

theorem rotOb_add (m n : Int) (o : Ob) : rotOb n (rotOb m o) = rotOb (m + n) o := by
  simp [rotOb, Int.add_assoc]

theorem rotate_rotate (m n : Int) (t : Ty) : rotate n (rotate m t) = rotate (m + n) t := by
  unfold rotate
  rcases odd_or_even m with hm | hm <;> rcases odd_or_even n with hn | hn
  · have h : ¬ ((m + n) % 2 = 1) := by omega
    simp [hm, hn, h, Function.comp_def, rotOb_add]
  · have h : (m + n) % 2 = 1 := by omega
    simp [hm, hn, h, Function.comp_def, rotOb_add]
  · have h : (m + n) % 2 = 1 := by omega
    simp [hm, hn, h, Function.comp_def, rotOb_add]
  · have h : ¬ ((m + n) % 2 = 1) := by omega
    simp [hm, hn, h, Function.comp_def, rotOb_add]

@[simp] theorem rotate_zero (t : Ty) : rotate 0 t = t := RTy.rotate_zero_list t

theorem rotate_append (z : Int) (a b : Ty) :
    rotate z (a ++ b) = if z % 2 = 1 then rotate z b ++ rotate z a else rotate z a ++ rotate z b := by
  unfold rotate
  split <;> simp

@[simp] theorem rotate_length (z : Int) (t : Ty) : (rotate z t).length = t.length := by
  unfold rotate; split <;> simp

@[simp] theorem rotate_nil (z : Int) : rotate z [] = [] := by
  unfold rotate; split <;> simp

@[simp] theorem l_r (t : Ty) : r (l t) = t := by simp [l, r, rotate_rotate]
@[simp] theorem r_l (t : Ty) : l (r t) = t := by simp [l, r, rotate_rotate]

theorem l_append (a b : Ty) : l (a ++ b) = l b ++ l a := by
  simp [l, rotate_append]
theorem r_append (a b : Ty) : r (a ++ b) = r b ++ r a := by
  simp [r, rotate_append]

theorem l_singleton (o : Ob) : l [o] = [rotOb (-1) o] := by simp [l, rotate]
theorem r_singleton (o : Ob) : r [o] = [rotOb 1 o] := by simp [r, rotate]

@[simp] theorem l_nil : l [] = [] := by simp [l]
@[simp] theorem r_nil : r [] = [] := by simp [r]
@[simp] theorem l_length (t : Ty) : (l t).length = t.length := by simp [l]
@[simp] theorem r_length (t : Ty) : (r t).length = t.length := by simp [r]

theorem rotate_injective (z : Int) {a b : Ty} (h : rotate z a = rotate z b) : a = b := by
  have := congrArg (rotate (-z)) h
  simpa [rotate_rotate, Int.add_right_neg] using this

end Ty

/-- **C02** Adjoint laws of the Python `Ty.rotate` for all types and all integers. -/
theorem C02_adjoint_laws {a b : RTy} (ha : a.Reach) (hb : b.Reach) (m n : Int) :
    RTy.rotate 0 a = a
    ∧ RTy.rotate n (RTy.rotate m a) = RTy.rotate (m + n) a
    ∧ RTy.rotate 1 (RTy.rotate (-1) a) = a ∧ RTy.rotate (-1) (RTy.rotate 1 a) = a
    ∧ (n % 2 = 0 → RTy.rotate n (RTy.tensor a b) = RTy.tensor (RTy.rotate n a) (RTy.rotate n b))
    ∧ (n % 2 = 1 → RTy.rotate n (RTy.tensor a b) = RTy.tensor (RTy.rotate n b) (RTy.rotate n a))
    ∧ (RTy.rotate n a).len = a.len := by
  rw [(canon_iff a).1 (C01_canonical ha), (canon_iff b).1 (C01_canonical hb)]
  simp only [rotate_ofTy, tensor_ofTy, Ty.rotate_rotate, Ty.rotate_append, len_ofTy]
  refine ⟨by simp, trivial, by simp, by simp, ?_, ?_, by simp⟩
  · intro h; rw [if_neg (by omega)]
  · intro h; rw [if_pos h]

example : RTy.rotate (-3) (ofTy [⟨"n", 0⟩, ⟨"s", 2⟩]) = ofTy [⟨"s", -1⟩, ⟨"n", -3⟩] := by
  rw [rotate_ofTy]; rfl

/-! ## C03 -/

/-- **C03** slicing, insertion, replacement at in-range indices and errors out of range. -/
theorem C03_index_laws {t o : RTy} (ht : t.Reach) (ho : o.Reach) (i : Nat) :
    RTy.tensor (t.slice none (some i)) (t.slice (some i) none) = t
    ∧ (i ≤ t.len → RTy.insert t o i =
        .ok (RTy.tensor (RTy.tensor (t.slice none (some i)) o) (t.slice (some i) none)))
    ∧ (t.len < i → RTy.insert t o i = .error .indexError)
    ∧ (i < t.len → RTy.replace t o i =
        .ok (RTy.tensor (RTy.tensor (t.slice none (some i)) o) (t.slice (some (i + 1)) none)))
    ∧ (t.len < i → RTy.replace t o i = .error .indexError) := by
  rw [(canon_iff t).1 (C01_canonical ht), (canon_iff o).1 (C01_canonical ho)]
  simp only [slice_ofTy, tensor_ofTy, len_ofTy, insert_ofTy, replace_ofTy, pySlice_nat_to,
    pySlice_nat_from, List.take_append_drop, true_and]
  refine ⟨?_, ?_, ?_, ?_⟩
  · intro h; rw [if_pos h]
  · intro h; rw [if_neg (by omega)]
  · intro h
    rw [if_pos h, show ((i : Int) + 1) = ((i + 1 : Nat) : Int) by omega, pySlice_nat_from]
  · intro h; rw [if_neg (by omega), if_neg (by omega)]

/-- **C03** `t ** n` and `count`. -/
theorem C03_repeat_count {t u : RTy} (ht : t.Reach) (hu : u.Reach) (m n : Nat) (o : Ob) :
    (t.rep (m + n)) = RTy.tensor (t.rep m) (t.rep n)
    ∧ (t.rep n).len = n * t.len
    ∧ Ty.count (RTy.tensor t u).atoms o = Ty.count t.atoms o + Ty.count u.atoms o := by
  rw [(canon_iff t).1 (C01_canonical ht), (canon_iff u).1 (C01_canonical hu)]
  simp only [rep_ofTy, tensor_ofTy, len_ofTy, atoms_ofTy]
  refine ⟨?_, ?_, ?_⟩
  · simp only [Ty.rep]; rw [← List.replicate_append_replicate, List.flatten_append]
  · simp [Ty.rep]
  · simp [Ty.count]

/-- C03 finding: with a negative index `insert` on an atomic type silently drops the receiver
(`Ty('n').insert(Ty('s'), -1)` is `Ty('s')`), although Python list conventions would insert before
the last atom.  grammar.py:249 has no lower bound check and grammar.py:260 reads `objects`, which is
empty for an atomic type. -/
theorem C03_insert_negative_refuted :
    ∃ t o : RTy, t.Reach ∧ o.Reach ∧ t.len = 1 ∧ RTy.insert t o (-1) = .ok o :=
  ⟨RTy.atom ⟨"n", 0⟩, RTy.atom ⟨"s", 0⟩, .atom _, .atom _, rfl, by
    simp [RTy.insert, RTy.atom, RTy.len, RTy.isAtomic, objects, name, RTy.isEmpty, pySlice,
      RTy.iter, fromIter]⟩

/-- C03 finding: `replace` accepts `index == len(t)` and then replaces the *last* atom, the same
result as `index == len(t) - 1` (grammar.py:218,232-233). -/
theorem C03_replace_at_len {t o : RTy} (ht : t.Reach) (ho : o.Reach) (h : 0 < t.len) :
    RTy.replace t o t.len = RTy.replace t o (t.len - 1 : Nat) := by
  rw [(canon_iff t).1 (C01_canonical ht), (canon_iff o).1 (C01_canonical ho)] at *
  rw [len_ofTy] at h
  rw [len_ofTy, replace_ofTy, replace_ofTy, if_neg (by omega), if_pos rfl, if_pos (by omega)]
  rw [List.drop_of_length_le (by omega)]; simp

end Lambeq
