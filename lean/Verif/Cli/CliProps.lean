import Verif.Cli.Cli
import Mathlib.Data.List.Forall2

/-! # Command-line interface: proofs (C108) -/

namespace Lambeq
namespace Cli

/-! ## Loading and storing arguments -/

theorem set_same (a : Args) (k : Key) (v : Val) : a.set k v k = v := by simp [Args.set]
theorem set_other (a : Args) {k k' : Key} (v : Val) (h : k' ≠ k) : a.set k v k' = a k' := by simp [Args.set, h]

/-- Keys that are not in the list keep their values. -/
theorem fill_other : ∀ (l : List (Key × Val)) (a : Args) (k : Key), k ∉ l.map Prod.fst → fill a l k = a k := by
  intro l
  induction l with
  | nil => intro a k _; rfl
  | cons kv r ih =>
    obtain ⟨k', v⟩ := kv
    intro a k h
    simp only [List.map_cons, List.mem_cons, not_or] at h
    simp only [fill]
    rw [ih _ _ h.2]
    split
    · rfl
    · exact set_other _ _ h.1

theorem fill_truthy (l : List (Key × Val)) : ∀ (a : Args) (k : Key), (a k).truthy = true → fill a l k = a k := by
  induction l with
  | nil => intro a k _; rfl
  | cons kv r ih =>
    obtain ⟨k', v⟩ := kv
    intro a k h
    simp only [fill]
    split
    · exact ih _ _ h
    · rename_i hk
      have hne : k ≠ k' := by intro e; subst e; exact hk h
      have h2 : a.set k' v k = a k := set_other _ _ hne
      rw [ih _ _ (by rw [h2]; exact h), h2]

theorem fill_mem (l : List (Key × Val)) : ∀ (a : Args) (k : Key) (v : Val), (l.map Prod.fst).Nodup → (k, v) ∈ l → (a k).truthy = false → fill a l k = v := by
  induction l with
  | nil => intro a k v _ h; cases h
  | cons kv r ih =>
    obtain ⟨k', v'⟩ := kv
    intro a k v hn h hf
    simp only [List.map_cons, List.nodup_cons] at hn
    simp only [fill]
    rcases List.mem_cons.mp h with e | h2
    · cases e
      rw [fill_other _ _ _ hn.1, if_neg (by rw [hf]; simp), set_same]
    · have hne : k ≠ k' := by
        intro e; subst e
        exact hn.1 (List.mem_map_of_mem (f := Prod.fst) h2)
      apply ih _ _ _ hn.2 h2
      split
      · exact hf
      · rw [set_other _ _ hne]; exact hf

/-! ## Lists of options -/

theorem splitOn_ne_nil (c : Char) : ∀ s : List Char, splitOn c s ≠ [] := by
  intro s
  cases s with
  | nil => simp [splitOn]
  | cons x xs =>
    simp only [splitOn]
    split
    · simp
    · split <;> simp

theorem splitOn_one (c : Char) : ∀ (s w : List Char), splitOn c s = [w] ↔ s = w ∧ c ∉ w := by
  intro s
  induction s with
  | nil => intro w; simp only [splitOn, List.cons.injEq, and_true]; constructor
           · intro h; subst h; simp
           · intro h; exact h.1
  | cons x xs ih =>
    intro w
    simp only [splitOn]
    split
    · rename_i h
      constructor
      · intro e
        simp only [List.cons.injEq] at e
        exact absurd e.2 (splitOn_ne_nil c xs)
      · rintro ⟨e, hn⟩
        subst e
        exact absurd (by simp [h]) hn
    · rename_i h
      split
      · rename_i e; exact absurd e (splitOn_ne_nil c xs)
      · rename_i u us e
        constructor
        · intro e2
          simp only [List.cons.injEq] at e2
          obtain ⟨rfl, rfl⟩ := e2
          have := (ih u).mp e
          refine ⟨by rw [this.1], ?_⟩
          simp only [List.mem_cons, not_or]
          exact ⟨fun e => h e.symm, this.2⟩
        · rintro ⟨e2, hn⟩
          subst e2
          simp only [List.mem_cons, not_or] at hn
          have := (ih xs).mpr ⟨rfl, hn.2⟩
          rw [this] at e
          cases e
          rfl

theorem splitOn_two (c : Char) : ∀ (s u v : List Char), splitOn c s = [u, v] ↔ s = u ++ c :: v ∧ c ∉ u ∧ c ∉ v := by
  intro s
  induction s with
  | nil => intro u v; simp [splitOn]
  | cons x xs ih =>
    intro u v
    simp only [splitOn]
    split
    · rename_i h
      subst h
      constructor
      · intro e
        simp only [List.cons.injEq] at e
        obtain ⟨rfl, e⟩ := e
        have := (splitOn_one x xs v).mp e
        exact ⟨by rw [this.1]; rfl, by simp, this.2⟩
      · rintro ⟨e, hu, hv⟩
        cases u with
        | nil =>
          simp only [List.nil_append, List.cons.injEq, true_and] at e
          rw [(splitOn_one x xs v).mpr ⟨e, hv⟩]
        | cons y u =>
          simp only [List.cons_append, List.cons.injEq] at e
          exact absurd (by simp [e.1]) hu
    · rename_i h
      split
      · rename_i e; exact absurd e (splitOn_ne_nil c xs)
      · rename_i w ws e
        constructor
        · intro e2
          simp only [List.cons.injEq] at e2
          obtain ⟨rfl, rfl⟩ := e2
          have := (ih w v).mp e
          refine ⟨by rw [this.1]; rfl, ?_, this.2.2⟩
          simp only [List.mem_cons, not_or]
          exact ⟨fun e => h e.symm, this.2.1⟩
        · rintro ⟨e2, hu, hv⟩
          cases u with
          | nil =>
            simp only [List.nil_append, List.cons.injEq] at e2
            exact absurd e2.1 h
          | cons y u =>
            simp only [List.cons_append, List.cons.injEq] at e2
            simp only [List.mem_cons, not_or] at hu
            have := (ih u v).mpr ⟨e2.2, hu.2, hv⟩
            rw [this] at e
            cases e
            rw [e2.1]

/-- `c.join(ws)` -/
def joinOn (c : Char) : List (List Char) → List Char
  | [] => []
  | [w] => w
  | w :: w' :: ws => w ++ c :: joinOn c (w' :: ws)

theorem splitOn_join (c : Char) : ∀ s : List Char, joinOn c (splitOn c s) = s := by
  intro s
  induction s with
  | nil => rfl
  | cons x xs ih =>
    simp only [splitOn]
    split
    · rename_i h
      subst h
      cases hs : splitOn x xs with
      | nil => exact absurd hs (splitOn_ne_nil x xs)
      | cons w ws => rw [hs] at ih; simp [joinOn, ih]
    · split
      · rename_i e; exact absurd e (splitOn_ne_nil c xs)
      · rename_i w ws e
        rw [e] at ih
        cases ws with
        | nil => simp only [joinOn] at ih ⊢; rw [ih]
        | cons w' ws => simp only [joinOn, List.cons_append] at ih ⊢; rw [ih]

theorem splitOn_clean (c : Char) : ∀ s : List Char, ∀ w ∈ splitOn c s, c ∉ w := by
  intro s
  induction s with
  | nil => intro w h; simp only [splitOn, List.mem_singleton] at h; subst h; simp
  | cons x xs ih =>
    intro w h
    simp only [splitOn] at h
    split at h
    · rcases List.mem_cons.mp h with e | h
      · subst e; simp
      · exact ih w h
    · rename_i hx
      split at h
      · simp only [List.mem_singleton] at h; subst h; simp only [List.mem_singleton]; exact fun e => hx e.symm
      · rename_i u us e
        rcases List.mem_cons.mp h with e2 | h
        · subst e2
          simp only [List.mem_cons, not_or]
          exact ⟨fun e => hx e.symm, ih u (by rw [e]; simp)⟩
        · exact ih w (by rw [e]; exact List.mem_cons_of_mem _ h)

theorem dictGet_set : ∀ (d : List (String × Int)) (k : String) (v : Int) (k' : String), dictGet (dictSet d k v) k' = if k' = k then some v else dictGet d k' := by
  intro d k v k'
  induction d with
  | nil =>
    by_cases h : k = k'
    · subst h; simp [dictSet, dictGet]
    · simp [dictSet, dictGet, h, Ne.symm h]
  | cons kv r ih =>
    obtain ⟨k1, v1⟩ := kv
    simp only [dictSet]
    split
    · rename_i e
      subst e
      by_cases h : k1 = k'
      · subst h; simp [dictGet]
      · simp [dictGet, h, Ne.symm h]
    · rename_i hne
      by_cases h : k1 = k'
      · subst h; simp [dictGet, hne]
      · simp only [dictGet, h, if_false]
        exact ih

/-- An argument `key=value` that is accepted. -/
def Parses (int : List Char → Option Int) (names : List String) (arg : List Char) (kv : String × Int) : Prop :=
  ∃ v : List Char, arg = kv.1.toList ++ '=' :: v ∧ '=' ∉ kv.1.toList ∧ '=' ∉ v ∧ kv.1 ∈ names ∧ int v = some kv.2

theorem argCall_iff (int : List Char → Option Int) (names : List String) (arg : List Char) (kv : String × Int) : argCall int names arg = .ok kv ↔ Parses int names arg kv := by
  simp only [argCall]
  constructor
  · intro h
    split at h
    · rename_i k v e
      split at h
      · rename_i hm
        split at h
        · cases h
        · rename_i n hi
          cases h
          have := (splitOn_two '=' arg k v).mp e
          exact ⟨v, by simpa using this.1, by simpa using this.2.1, this.2.2, hm, hi⟩
      · cases h
    · cases h
  · rintro ⟨v, e, hk, hv, hm, hi⟩
    have := (splitOn_two '=' arg kv.1.toList v).mpr ⟨e, hk, hv⟩
    rw [this]
    simp only [String.ofList_toList]
    rw [if_pos hm, hi]

/-- The value that comes last. -/
def lastOf (kvs : List (String × Int)) (k : String) : Option Int := (kvs.reverse.find? (fun kv => decide (kv.1 = k))).map Prod.snd

theorem lastOf_cons (k : String) (v : Int) (kvs : List (String × Int)) (k' : String) :
    lastOf ((k, v) :: kvs) k' = match lastOf kvs k' with | some x => some x | none => if k' = k then some v else none := by
  simp only [lastOf, List.reverse_cons, List.find?_append]
  cases kvs.reverse.find? (fun kv => decide (kv.1 = k')) with
  | some x => rfl
  | none =>
    by_cases h : k = k'
    · subst h; simp
    · simp [h, Ne.symm h]

theorem argLoop_iff (int : List Char → Option Int) (names : List String) : ∀ (args : List (List Char)) (d r : List (String × Int)),
    argLoop int names d args = .ok r → ∃ kvs, List.Forall₂ (Parses int names) args kvs ∧
      ∀ k, dictGet r k = match lastOf kvs k with | some x => some x | none => dictGet d k := by
  intro args
  induction args with
  | nil => intro d r h; cases h; exact ⟨[], .nil, fun k => rfl⟩
  | cons a as ih =>
    intro d r h
    simp only [argLoop] at h
    split at h
    · cases h
    · rename_i k v e
      obtain ⟨kvs, h1, h2⟩ := ih _ _ h
      refine ⟨(k, v) :: kvs, .cons ((argCall_iff int names a (k, v)).mp e) h1, ?_⟩
      intro k'
      rw [h2 k', lastOf_cons]
      cases lastOf kvs k' with
      | some x => rfl
      | none => simp only [dictGet_set]; split <;> rfl

theorem argLoop_ok (int : List Char → Option Int) (names : List String) : ∀ (args : List (List Char)) (kvs : List (String × Int)), List.Forall₂ (Parses int names) args kvs →
    ∀ d, ∃ r, argLoop int names d args = .ok r := by
  intro args kvs h
  induction h with
  | nil => intro d; exact ⟨d, rfl⟩
  | cons h _ ih =>
    intro d
    simp only [argLoop, (argCall_iff int names _ _).mpr h]
    exact ih _

theorem addDefaults_get : ∀ (c : List (String × Option Int)) (d : List (String × Int)) (k : String), (c.map Prod.fst).Nodup →
    dictGet (addDefaults c d) k = match dictGet d k with | some x => some x | none => (c.find? (fun kv => decide (kv.1 = k))).bind Prod.snd := by
  intro c
  induction c with
  | nil => intro d k _; simp only [addDefaults]; cases dictGet d k <;> rfl
  | cons kv r ih =>
    obtain ⟨k', v⟩ := kv
    intro d k hn
    simp only [List.map_cons, List.nodup_cons] at hn
    have hnot : k' = k → r.find? (fun kv => decide (kv.1 = k)) = none := by
      intro e; subst e
      apply List.find?_eq_none.mpr
      intro x hx
      simp only [decide_eq_true_eq]
      intro e
      exact hn.1 (List.mem_map.mpr ⟨x, hx, e⟩)
    cases v with
    | none =>
      simp only [addDefaults]
      rw [ih _ _ hn.2]
      cases hd : dictGet d k with
      | some x => rfl
      | none =>
        by_cases e : k' = k
        · simp [e, hnot e]
        · simp [e]
    | some v =>
      simp only [addDefaults]
      rw [ih _ _ hn.2]
      by_cases e : k' = k
      · subst e
        cases hd : dictGet d k' with
        | some x => simp [hd]
        | none => simp [dictGet_set]
      · cases hk : dictGet d k' with
        | some x => simp [e]
        | none => simp [dictGet_set, e, Ne.symm e]

/-! ## Image names -/

/-- `m` in `w` decimal digits. -/
def pad : Nat → Nat → List Char
  | 0, _ => []
  | w + 1, m => pad w (m / 10) ++ [Nat.digitChar (m % 10)]

theorem pad_length : ∀ w m, (pad w m).length = w := by
  intro w
  induction w with
  | zero => intro m; rfl
  | succ w ih => intro m; simp [pad, ih]

theorem pad_zero : ∀ w, pad w 0 = List.replicate w '0' := by
  intro w
  induction w with
  | zero => rfl
  | succ w ih => simp only [pad, Nat.zero_div, ih, Nat.zero_mod]; rw [List.replicate_succ']; rfl

theorem digits_length (m w : Nat) (hw : 0 < w) : (Nat.toDigits 10 m).length ≤ w ↔ m < 10 ^ w := Nat.length_toDigits_le_iff (by omega) hw

theorem zfill_pad : ∀ w m, 0 < w → m < 10 ^ w → zfill (Nat.toDigits 10 m) w = pad w m := by
  intro w
  induction w with
  | zero => intro m h; omega
  | succ w ih =>
    intro m _ hm
    by_cases hw : m < 10
    · rw [zfill, Nat.toDigits_of_lt_base hw]
      simp only [pad, List.length_singleton, Nat.add_sub_cancel, Nat.div_eq_of_lt hw, pad_zero, Nat.mod_eq_of_lt hw]
    · have hb : 10 ≤ m := by omega
      have hw0 : 0 < w := by
        rcases Nat.eq_zero_or_pos w with e | h
        · subst e; omega
        · exact h
      have hlt : m / 10 < 10 ^ w := by
        rw [Nat.div_lt_iff_lt_mul (by omega)]; rw [Nat.pow_succ] at hm; exact hm
      have hi := ih (m / 10) hw0 hlt
      simp only [pad, ← hi, zfill]
      rw [Nat.toDigits_of_base_le (by omega) hb]
      simp

theorem digitChar_lt : ∀ a b : Nat, a < b → b < 10 → Nat.digitChar a < Nat.digitChar b := by
  intro a b h hb
  have ha : a < 10 := by omega
  have : ∀ a : Fin 10, ∀ b : Fin 10, a < b → Nat.digitChar a.val < Nat.digitChar b.val := by decide +kernel
  exact this ⟨a, ha⟩ ⟨b, hb⟩ h

theorem lt_append_of_lt {a b : List Char} : a.length = b.length → a < b → ∀ c d : List Char, a ++ c < b ++ d := by
  induction a generalizing b with
  | nil => intro hl h; cases b with
    | nil => exact absurd h (by simp)
    | cons _ _ => cases hl
  | cons x xs ih =>
    cases b with
    | nil => intro hl; cases hl
    | cons y ys =>
      intro hl h c d
      simp only [List.length_cons, Nat.succ.injEq] at hl
      rw [List.cons_append, List.cons_append, List.cons_lt_cons_iff]
      rcases List.cons_lt_cons_iff.mp h with h | ⟨e, h⟩
      · exact .inl h
      · exact .inr ⟨e, ih hl h c d⟩

theorem append_lt_append (p : List Char) {a b : List Char} (h : a < b) : p ++ a < p ++ b := by
  induction p with
  | nil => exact h
  | cons x xs ih => rw [List.cons_append, List.cons_append, List.cons_lt_cons_iff]; exact .inr ⟨rfl, ih⟩

theorem pad_lt : ∀ (w m m' : Nat), m < m' → m' < 10 ^ w → pad w m < pad w m' := by
  intro w
  induction w with
  | zero => intro m m' h h'; simp at h'; omega
  | succ w ih =>
    intro m m' h h'
    simp only [pad]
    rcases Nat.lt_or_ge (m / 10) (m' / 10) with hd | hd
    · have hlt : m' / 10 < 10 ^ w := by
        rw [Nat.div_lt_iff_lt_mul (by omega)]; rw [Nat.pow_succ] at h'; exact h'
      exact lt_append_of_lt (by rw [pad_length, pad_length]) (ih _ _ hd hlt) _ _
    · have e : m / 10 = m' / 10 := by omega
      rw [e]
      apply append_lt_append
      rw [List.cons_lt_cons_iff]
      exact .inl (digitChar_lt _ _ (by omega) (by omega))

/-- Image names are in the order of the diagrams. -/
theorem imageName_lt (fmt : List Char) (n i j : Nat) (hij : i < j) (hj : j < n) : imageName fmt n i < imageName fmt n j := by
  have hw : 0 < (Nat.toDigits 10 n).length := Nat.length_toDigits_pos
  have hn : n < 10 ^ (Nat.toDigits 10 n).length := (digits_length n _ hw).mp (Nat.le_refl _)
  have h : zfill (Nat.toDigits 10 (i + 1)) (Nat.toDigits 10 n).length ++ '.' :: fmt < zfill (Nat.toDigits 10 (j + 1)) (Nat.toDigits 10 n).length ++ '.' :: fmt := by
    rw [zfill_pad _ _ hw (by omega), zfill_pad _ _ hw (by omega)]
    exact lt_append_of_lt (by rw [pad_length, pad_length]) (pad_lt _ _ _ (by omega) (by omega)) _ _
  exact append_lt_append ['d', 'i', 'a', 'g', 'r', 'a', 'm', '_'] h

theorem pathJoin_lt (d : List Char) {f g : List Char} (h : f < g) : pathJoin d f < pathJoin d g := by
  simp only [pathJoin]
  split
  · exact append_lt_append d h
  · apply append_lt_append
    rw [List.cons_lt_cons_iff]
    exact .inr ⟨rfl, h⟩

/-! ## Extensions -/

theorem splitext_dot (p : List Char) : (splitext p).2 = [] ∨ ∃ r, (splitext p).2 = '.' :: r := by
  simp only [splitext]
  split
  · split
    · exact .inr ⟨_, rfl⟩
    · exact .inl rfl
  · exact .inl rfl

theorem dropWhile_head (P : Char → Bool) : ∀ l : List Char, ∀ x r, l.dropWhile P = x :: r → P x = false := by
  intro l x r h
  have := List.head?_dropWhile_not P l
  rw [h] at this
  simpa using this

theorem splitext_append (p : List Char) : (splitext p).1 ++ (splitext p).2 = p := by
  simp only [splitext]
  split
  · rename_i base e
    split
    · have := List.takeWhile_append_dropWhile (p := fun c => decide (c ≠ '.' ∧ c ≠ '/')) (l := p.reverse)
      rw [e] at this
      have h2 := congrArg List.reverse this
      rw [List.reverse_reverse] at h2
      simp only [List.reverse_append, List.reverse_cons, List.append_assoc, List.singleton_append] at h2
      exact h2
    · simp
  · simp

/-! ## Loops -/

theorem mapPy_iff {α β : Type} (f : α → Except PyErr β) : ∀ (xs : List α) (ys : List β), mapPy f xs = .ok ys ↔ List.Forall₂ (fun x y => f x = .ok y) xs ys := by
  intro xs
  induction xs with
  | nil => intro ys; simp only [mapPy]; constructor
           · intro h; cases h; exact .nil
           · intro h; cases h; rfl
  | cons x xs ih =>
    intro ys
    simp only [mapPy]
    constructor
    · intro h
      split at h
      · cases h
      · rename_i y e
        split at h
        · cases h
        · rename_i zs e2
          cases h
          exact .cons e ((ih zs).mp e2)
    · intro h
      cases h with
      | cons h1 h2 => rw [h1, (ih _).mpr h2]

theorem mapPy_error {α β : Type} (f : α → Except PyErr β) : ∀ (xs : List α), (∃ e, mapPy f xs = .error e) ↔ ∃ x ∈ xs, ∃ e, f x = .error e := by
  intro xs
  induction xs with
  | nil => simp [mapPy]
  | cons x xs ih =>
    simp only [mapPy, List.mem_cons, exists_eq_or_imp]
    rw [← ih]
    cases hx : f x with
    | error e => simp
    | ok y =>
      cases hxs : mapPy f xs with
      | error e => simp
      | ok ys => simp

theorem mapPy_total {α β : Type} (f : α → Except PyErr β) (xs : List α) (h : ∀ x, ∃ y, f x = .ok y) : ∃ ys, mapPy f xs = .ok ys := by
  cases e : mapPy f xs with
  | ok ys => exact ⟨ys, rfl⟩
  | error e' =>
    obtain ⟨x, _, e2, h2⟩ := (mapPy_error f xs).mp ⟨e', e⟩
    obtain ⟨y, hy⟩ := h x
    rw [hy] at h2; cases h2

end Cli
end Lambeq
