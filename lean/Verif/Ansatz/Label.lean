import Verif.Ansatz.CircuitAr

/-!
# Names of parameters

Models `BaseAnsatz._summarise_box` (`lambeq/ansatz/base.py` 61-71), the method `Ty.__str__` it uses (`lambeq/backend/grammar.py` 179-186), the names of
the symbols of `CircuitAnsatz._ar` (`lambeq/ansatz/circuit.py` 169, 176), and `TensorAnsatz._ar` and `_generate_directed_dom_cod`
(`lambeq/ansatz/tensor.py` 54-109).

Strings are lists of characters. The values of `ob_map` for tensors are lists of positive numbers.
-/

namespace Lambeq
namespace Label

/-- `s * k` for a string `s`: empty for `k ≤ 0`. -/
def times (s : List Char) (k : Int) : List Char := (List.replicate k.toNat s).flatten

/-- grammar.py:183: `f'{self.name}{".l"*(-self.z)}{".r"*self.z}'` -/
def obStr (o : Ob) : List Char := o.name.toList ++ times ['.', 'l'] (-o.z) ++ times ['.', 'r'] o.z

/-- grammar.py:179-186 -/
def tyStr : Ty → List Char
  | [] => "Ty()".toList
  | o :: t => List.intercalate [' ', '@', ' '] ((o :: t).map obStr)

/-- `s.replace(' @ ', '@')`: occurrences are replaced from left to right, without overlap. -/
def replaceAt : List Char → List Char
  | ' ' :: '@' :: ' ' :: r => '@' :: replaceAt r
  | c :: r => c :: replaceAt r
  | [] => []

/-- base.py:65-66 -/
def shortTy (t : Ty) : List Char := if t = [] then [] else replaceAt (tyStr t)

/-- base.py:71: `s.translate({ord(c): f'\\{c}' for c in ':, '})` -/
def escape : List Char → List Char
  | [] => []
  | c :: r => if c = ':' ∨ c = ',' ∨ c = ' ' then '\\' :: c :: escape r else c :: escape r

/-- `_summarise_box`, base.py:61-71. -/
def label (name : String) (dom cod : Ty) : String :=
  String.ofList (escape (name.toList ++ '_' :: shortTy dom ++ '_' :: shortTy cod))

/-- circuit.py:169, 176: `f'{label}_{i}'` -/
def symName (name : String) (dom cod : Ty) (i : Nat) : String := label name dom cod ++ "_" ++ toString i

/-! ## The tensor ansatz -/

/-- `lambeq.backend.symbol.Symbol` with `scale = 1`, symbol.py:41-44. -/
structure Sym where
  name : String
  directedDom : Nat
  directedCod : Nat

/-- symbol.py:81-83 -/
def Sym.size (s : Sym) : Nat := s.directedDom * s.directedCod

/-- The functor on types, grammar.py:2048-2105 with `ob = lambda _, ty: ob_map[ty]`: the dimensions of an atomic type are those of the type of winding number
0, reversed for an odd winding number. -/
def dims (obMap : String → Option (List Nat)) : Ty → Except PyErr (List Nat)
  | [] => .ok []
  | o :: t => match obMap o.name with
    | none => .error .keyError
    | some d => match dims obMap t with
      | .error e => .error e
      | .ok ds => .ok ((if o.z % 2 = 0 then d else d.reverse) ++ ds)

/-- tensor.py:90-106 -/
def directed (dom cod : Ty) : Ty × Ty :=
  let afterCod := cod.foldl (init := (([] : Ty), ([] : Ty))) fun p o => if o.z % 2 ≠ 0 then (p.1 ++ [o], p.2) else (p.1, p.2 ++ [o])
  dom.foldl (init := afterCod) fun p o => if o.z % 2 ≠ 0 then (p.1, p.2 ++ [o]) else (p.1 ++ [o], p.2)

/-- A box of the tensor category whose data is a symbol. -/
structure SymBox where
  name : String
  dom : List Nat
  cod : List Nat
  data : Sym

/-- `TensorAnsatz._ar`, tensor.py:54-66. -/
def tensorAr (obMap : String → Option (List Nat)) (name : String) (dom cod : Ty) : Except PyErr SymBox := do
  let dd ← dims obMap (directed dom cod).1
  let dc ← dims obMap (directed dom cod).2
  let d ← dims obMap dom
  let c ← dims obMap cod
  .ok ⟨name, d, c, ⟨label name dom cod, dd.prod, dc.prod⟩⟩

/-! ## Specification -/

/-- The name of an atomic type that causes no confusion. -/
def Plain (s : String) : Prop := s ≠ "" ∧ '_' ∉ s.toList ∧ '@' ∉ s.toList ∧ '.' ∉ s.toList

/-- All atomic types of `t` have plain names. -/
def PlainTy (t : Ty) : Prop := ∀ o ∈ t, Plain o.name

/-! ## Lemmas -/

/-- Undo `escape`. -/
def unescape : List Char → List Char
  | [] => []
  | [c] => [c]
  | a :: b :: r => if a = '\\' ∧ (b = ':' ∨ b = ',' ∨ b = ' ') then b :: unescape r else a :: unescape (b :: r)

theorem escape_head (l : List Char) : ∀ b r, escape l = b :: r → ¬ (b = ':' ∨ b = ',' ∨ b = ' ') := by
  intro b r h
  cases l with
  | nil => cases h
  | cons c l =>
    rw [escape] at h
    split at h
    · cases h; decide
    · rename_i hc
      cases h; exact hc

theorem unescape_escape (l : List Char) : unescape (escape l) = l := by
  induction l with
  | nil => rfl
  | cons c l ih =>
    rw [escape]
    split
    · rename_i hc
      rw [unescape, if_pos ⟨rfl, hc⟩, ih]
    · rename_i hc
      cases h : escape l with
      | nil => rw [h] at ih; rw [unescape]; simp only [unescape] at ih; rw [← ih]
      | cons b r =>
        rw [unescape, if_neg (fun hh => escape_head l b r h hh.2), ← h, ih]

theorem escape_injective {l m : List Char} (h : escape l = escape m) : l = m := by
  rw [← unescape_escape l, h, unescape_escape]

/-- The last separator splits a list in one way. -/
theorem split_last {c : Char} {a b a' b' : List Char} (hb : c ∉ b) (hb' : c ∉ b') (h : a ++ c :: b = a' ++ c :: b') : a = a' ∧ b = b' := by
  rcases List.append_eq_append_iff.mp h with ⟨m, hm1, hm2⟩ | ⟨m, hm1, hm2⟩
  · cases m with
    | nil => simp at hm1 hm2; exact ⟨hm1.symm, hm2⟩
    | cons x m =>
      simp only [List.cons_append, List.cons.injEq] at hm2
      exact absurd (by rw [hm2.2]; simp) hb
  · cases m with
    | nil => simp at hm1 hm2; exact ⟨hm1, hm2.symm⟩
    | cons x m =>
      simp only [List.cons_append, List.cons.injEq] at hm2
      exact absurd (by rw [hm2.2]; simp) hb'

/-- The first separator splits a list in one way. -/
theorem split_first {c : Char} {a b a' b' : List Char} (hb : c ∉ a) (hb' : c ∉ a') (h : a ++ c :: b = a' ++ c :: b') : a = a' ∧ b = b' := by
  rcases List.append_eq_append_iff.mp h with ⟨m, hm1, hm2⟩ | ⟨m, hm1, hm2⟩
  · cases m with
    | nil => simp at hm1 hm2; exact ⟨hm1.symm, hm2⟩
    | cons x m =>
      simp only [List.cons_append, List.cons.injEq] at hm2
      exact absurd (by rw [hm1, hm2.1]; simp) hb'
  · cases m with
    | nil => simp at hm1 hm2; exact ⟨hm1, hm2.symm⟩
    | cons x m =>
      simp only [List.cons_append, List.cons.injEq] at hm2
      exact absurd (by rw [hm1, hm2.1]; simp) hb

theorem mem_times {s : List Char} {k : Int} {c : Char} (h : c ∈ times s k) : c ∈ s := by
  simp only [times, List.mem_flatten, List.mem_replicate] at h
  obtain ⟨l, ⟨_, rfl⟩, h⟩ := h
  exact h

/-- The suffix of the winding number. -/
def wind (z : Int) : List Char := times ['.', 'l'] (-z) ++ times ['.', 'r'] z

theorem obStr_eq (o : Ob) : obStr o = o.name.toList ++ wind o.z := by rw [obStr, wind, List.append_assoc]

theorem times_length (a b : Char) (k : Int) : (times [a, b] k).length = 2 * k.toNat := by
  simp [times, Nat.mul_comm]

theorem times_pos {a b : Char} {k : Int} (h : 0 < k) : times [a, b] k = a :: b :: times [a, b] (k - 1) := by
  obtain ⟨m, rfl⟩ : ∃ m : Nat, k = m + 1 := ⟨(k - 1).toNat, by omega⟩
  rw [times, times, show ((m : Int) + 1).toNat = m + 1 by omega, show ((m : Int) + 1 - 1).toNat = m by omega, List.replicate_succ, List.flatten_cons]
  rfl

theorem times_nonpos {s : List Char} {k : Int} (h : k ≤ 0) : times s k = [] := by
  rw [times, Int.toNat_of_nonpos h]; rfl

theorem wind_injective {z w : Int} (h : wind z = wind w) : z = w := by
  have hl := congrArg List.length h
  simp only [wind, List.length_append, times_length] at hl
  rcases Int.lt_trichotomy z 0 with hz | hz | hz
  · rcases Int.lt_trichotomy w 0 with hw | hw | hw
    · omega
    · omega
    · rw [wind, wind, times_pos (by omega : 0 < -z), times_nonpos (by omega : -w ≤ 0), times_pos hw] at h
      simp at h
  · omega
  · rcases Int.lt_trichotomy w 0 with hw | hw | hw
    · rw [wind, wind, times_pos (by omega : 0 < -w), times_nonpos (by omega : -z ≤ 0), times_pos hz] at h
      simp at h
    · omega
    · omega

theorem wind_head (z : Int) : wind z = [] ∨ ∃ r, wind z = '.' :: r := by
  rcases Int.lt_trichotomy z 0 with hz | hz | hz
  · exact .inr ⟨_, by rw [wind, times_pos (by omega : 0 < -z)]; rfl⟩
  · exact .inl (by subst hz; rfl)
  · exact .inr ⟨_, by rw [wind, times_nonpos (by omega : -z ≤ 0), times_pos hz]; rfl⟩

theorem obStr_injective {o p : Ob} (ho : '.' ∉ o.name.toList) (hp : '.' ∉ p.name.toList) (h : obStr o = obStr p) : o = p := by
  rw [obStr_eq, obStr_eq] at h
  have key : o.name.toList = p.name.toList ∧ wind o.z = wind p.z := by
    rcases wind_head o.z with e | ⟨r, e⟩ <;> rcases wind_head p.z with f | ⟨s, f⟩
    · rw [e, f, List.append_nil, List.append_nil] at h; exact ⟨h, e.trans f.symm⟩
    · rw [e, f, List.append_nil] at h
      exact absurd (by rw [h]; simp) ho
    · rw [e, f, List.append_nil] at h
      exact absurd (by rw [← h]; simp) hp
    · rw [e, f] at h
      obtain ⟨h1, h2⟩ := split_first ho hp h
      exact ⟨h1, by rw [e, f, h2]⟩
  cases o; cases p
  simp only [Ob.mk.injEq]
  exact ⟨String.toList_injective key.1, wind_injective key.2⟩

theorem not_mem_wind {c : Char} (h1 : c ≠ '.') (h2 : c ≠ 'l') (h3 : c ≠ 'r') (z : Int) : c ∉ wind z := by
  intro h
  rcases List.mem_append.mp h with h | h
  · have := mem_times h
    simp at this; tauto
  · have := mem_times h
    simp at this; tauto

theorem not_mem_obStr {c : Char} (h1 : c ≠ '.') (h2 : c ≠ 'l') (h3 : c ≠ 'r') {o : Ob} (h : c ∉ o.name.toList) : c ∉ obStr o := by
  rw [obStr_eq, List.mem_append]
  exact fun hh => hh.elim h (not_mem_wind h1 h2 h3 _)

theorem replaceAt_cons_ne {c : Char} {l : List Char} (h : ∀ r, c :: l ≠ ' ' :: '@' :: ' ' :: r) : replaceAt (c :: l) = c :: replaceAt l := by
  rw [replaceAt]
  rintro r rfl rfl
  exact h r rfl

theorem replaceAt_plain : ∀ (a l : List Char), '@' ∉ a → (∀ r, l = '@' :: r → False) → replaceAt (a ++ l) = a ++ replaceAt l
  | [], l, _, _ => rfl
  | [c], l, _, hl => by
      rw [List.cons_append, List.nil_append, replaceAt_cons_ne]
      · rfl
      · intro r hr
        cases hr
        exact hl _ rfl
  | c :: d :: a, l, ha, hl => by
      rw [List.cons_append, replaceAt_cons_ne, replaceAt_plain (d :: a) l (fun h => ha (List.mem_cons_of_mem _ h)) hl]
      · rfl
      · intro r hr
        simp only [List.cons_append, List.cons.injEq] at hr
        exact ha (by rw [hr.2.1]; simp)

theorem replaceAt_sep (l : List Char) : replaceAt (' ' :: '@' :: ' ' :: l) = '@' :: replaceAt l := by
  rw [replaceAt]

theorem replaceAt_intercalate : ∀ (parts : List (List Char)), (∀ p ∈ parts, '@' ∉ p) →
    replaceAt (List.intercalate [' ', '@', ' '] parts) = List.intercalate ['@'] parts
  | [], _ => rfl
  | [p], h => by
      have := replaceAt_plain p [] (h p (by simp)) (by simp)
      simp only [List.intercalate_singleton]
      simpa [replaceAt] using this
  | p :: q :: ps, h => by
      rw [List.intercalate_cons_cons, List.intercalate_cons_cons, List.append_assoc, replaceAt_plain _ _ (h p (by simp)) (by simp)]
      show p ++ replaceAt (' ' :: '@' :: ' ' :: _) = _
      rw [replaceAt_sep, show ([] : List Char).append (List.intercalate [' ', '@', ' '] (q :: ps)) = List.intercalate [' ', '@', ' '] (q :: ps) from rfl,
        replaceAt_intercalate (q :: ps) (fun x hx => h x (List.mem_cons_of_mem _ hx)), List.append_assoc]
      rfl

theorem intercalate_injective : ∀ (l m : List (List Char)), (∀ p ∈ l, '@' ∉ p ∧ p ≠ []) → (∀ p ∈ m, '@' ∉ p ∧ p ≠ []) →
    List.intercalate ['@'] l = List.intercalate ['@'] m → l = m
  | [], [], _, _, _ => rfl
  | [], [q], _, hm, h => by simp at h; exact absurd h (hm q (by simp)).2
  | [], q :: q' :: m, _, hm, h => by rw [List.intercalate_cons_cons] at h; simp at h
  | [p], [], hl, _, h => by simp at h; exact absurd h (hl p (by simp)).2
  | p :: p' :: l, [], hl, _, h => by rw [List.intercalate_cons_cons] at h; simp at h
  | [p], [q], _, _, h => by simpa using h
  | [p], q :: q' :: m, hl, _, h => by
      rw [List.intercalate_cons_cons, List.intercalate_singleton] at h
      exact absurd (by rw [h]; simp) (hl p (by simp)).1
  | p :: p' :: l, [q], _, hm, h => by
      rw [List.intercalate_cons_cons, List.intercalate_singleton] at h
      exact absurd (by rw [← h]; simp) (hm q (by simp)).1
  | p :: p' :: l, q :: q' :: m, hl, hm, h => by
      rw [List.intercalate_cons_cons, List.intercalate_cons_cons, List.append_assoc, List.append_assoc] at h
      obtain ⟨h1, h2⟩ := split_first (hl p (by simp)).1 (hm q (by simp)).1 h
      rw [h1, intercalate_injective (p' :: l) (q' :: m) (fun x hx => hl x (List.mem_cons_of_mem _ hx)) (fun x hx => hm x (List.mem_cons_of_mem _ hx)) h2]

theorem shortTy_eq {t : Ty} (h : PlainTy t) : shortTy t = List.intercalate ['@'] (t.map obStr) := by
  cases t with
  | nil => rfl
  | cons o t =>
    rw [shortTy, if_neg (by simp), tyStr, replaceAt_intercalate]
    intro p hp
    obtain ⟨q, hq, rfl⟩ := List.mem_map.mp hp
    exact not_mem_obStr (by decide) (by decide) (by decide) (h q hq).2.2.1

theorem obStr_ne_nil {o : Ob} (h : Plain o.name) : obStr o ≠ [] := by
  rw [obStr_eq]
  intro hh
  refine h.1 (String.toList_injective ?_)
  rw [(List.append_eq_nil_iff.mp hh).1]; rfl

theorem shortTy_injective {t u : Ty} (ht : PlainTy t) (hu : PlainTy u) (h : shortTy t = shortTy u) : t = u := by
  rw [shortTy_eq ht, shortTy_eq hu] at h
  have aux : ∀ v : Ty, PlainTy v → ∀ p ∈ v.map obStr, '@' ∉ p ∧ p ≠ [] := by
    intro v hv p hp
    obtain ⟨q, hq, rfl⟩ := List.mem_map.mp hp
    exact ⟨not_mem_obStr (by decide) (by decide) (by decide) (hv q hq).2.2.1, obStr_ne_nil (hv q hq)⟩
  have hm := intercalate_injective _ _ (aux t ht) (aux u hu) h
  clear h aux
  induction t generalizing u with
  | nil => cases u with
    | nil => rfl
    | cons => cases hm
  | cons o t ih => cases u with
    | nil => cases hm
    | cons p u =>
      simp only [List.map_cons, List.cons.injEq] at hm
      rw [obStr_injective (ht o (by simp)).2.2.2 (hu p (by simp)).2.2.2 hm.1,
        ih (fun x hx => ht x (List.mem_cons_of_mem _ hx)) (fun x hx => hu x (List.mem_cons_of_mem _ hx)) hm.2]

theorem mem_intercalate {c : Char} : ∀ (l : List (List Char)), c ∈ List.intercalate ['@'] l → c = '@' ∨ ∃ p ∈ l, c ∈ p
  | [], h => by simp at h
  | [p], h => by simp at h; exact .inr ⟨p, by simp, h⟩
  | p :: q :: l, h => by
      rw [List.intercalate_cons_cons] at h
      rcases List.mem_append.mp h with h | h
      · rcases List.mem_append.mp h with h | h
        · exact .inr ⟨p, by simp, h⟩
        · exact .inl (by simpa using h)
      · rcases mem_intercalate (q :: l) h with h | ⟨r, hr, h⟩
        · exact .inl h
        · exact .inr ⟨r, List.mem_cons_of_mem _ hr, h⟩

theorem shortTy_underscore {t : Ty} (h : PlainTy t) : '_' ∉ shortTy t := by
  rw [shortTy_eq h]
  intro hh
  rcases mem_intercalate _ hh with hh | ⟨p, hp, hh⟩
  · exact absurd hh (by decide)
  · obtain ⟨q, hq, rfl⟩ := List.mem_map.mp hp
    exact not_mem_obStr (by decide) (by decide) (by decide) (h q hq).2.1 hh

/-! ## C76 -/

/-- **C76 (labels).** The label of a box determines its name, its domain and its codomain, whatever characters the name is made of, if the names of
the atomic types are plain. -/
theorem C76_label_injective {n n' : String} {d c d' c' : Ty} (hd : PlainTy d) (hc : PlainTy c) (hd' : PlainTy d') (hc' : PlainTy c') :
    label n d c = label n' d' c' ↔ n = n' ∧ d = d' ∧ c = c' := by
  constructor
  · intro h
    have h1 := escape_injective (String.ofList_injective h)
    obtain ⟨h2, h3⟩ := split_last (shortTy_underscore hc) (shortTy_underscore hc') h1
    obtain ⟨h4, h5⟩ := split_last (shortTy_underscore hd) (shortTy_underscore hd') h2
    exact ⟨String.toList_injective h4, shortTy_injective hd hd' h5, shortTy_injective hc hc' h3⟩
  · rintro ⟨rfl, rfl, rfl⟩; rfl

theorem toString_injective {i j : Nat} (h : (toString i).toList = (toString j).toList) : i = j := by
  simp only [Nat.toString_eq_repr, Nat.toList_repr] at h
  rw [← Nat.ofDigitChars_ten_toDigits (n := i), h, Nat.ofDigitChars_ten_toDigits]

theorem toString_underscore (i : Nat) : '_' ∉ (toString i).toList := by
  simp only [Nat.toString_eq_repr, Nat.toList_repr]
  exact Nat.underscore_not_in_toDigits

/-- **C76 (symbols).** Two symbols of circuits are equal exactly if they have the same number and belong to boxes with the same name, domain and codomain. -/
theorem C76_symbol_injective {n n' : String} {d c d' c' : Ty} {i j : Nat} (hd : PlainTy d) (hc : PlainTy c) (hd' : PlainTy d') (hc' : PlainTy c') :
    symName n d c i = symName n' d' c' j ↔ (n = n' ∧ d = d' ∧ c = c') ∧ i = j := by
  constructor
  · intro h
    have h0 := congrArg String.toList h
    simp only [symName, String.toList_append, show "_".toList = ['_'] from rfl, List.append_assoc, List.cons_append, List.nil_append] at h0
    obtain ⟨h1, h2⟩ := split_last (toString_underscore i) (toString_underscore j) h0
    exact ⟨(C76_label_injective hd hc hd' hc').mp (String.toList_injective h1), toString_injective h2⟩
  · rintro ⟨⟨rfl, rfl, rfl⟩, rfl⟩; rfl

/-- **C76 (independence).** Any choice of parameters for every triple of a name, a domain and a codomain is realised by an assignment of values to symbols:
distinct boxes never share a parameter. -/
theorem C76_independent (A : QBox.Ansatz) (size : String → Nat) (θ : String → Ty → Ty → Nat → ℝ) :
    ∃ val : String → ℝ, ∀ (n : String) (d c : Ty) (anc : Int), PlainTy d → PlainTy c → (∀ o ∈ d ++ c, A.obMap o.name = some (size o.name)) →
      A.ar val (label n d c) d c anc = A.arSized (θ n d c) (QBox.sizeOf' size d) (QBox.sizeOf' size c) anc := by
  classical
  refine ⟨fun s => if h : ∃ q : String × Ty × Ty × Nat, PlainTy q.2.1 ∧ PlainTy q.2.2.1 ∧ s = symName q.1 q.2.1 q.2.2.1 q.2.2.2 then
    θ h.choose.1 h.choose.2.1 h.choose.2.2.1 h.choose.2.2.2 else 0, fun n d c anc hd hc h => ?_⟩
  rw [QBox.C49_ar A size _ _ d c anc h]
  congr 1
  funext i
  have hex : ∃ q : String × Ty × Ty × Nat, PlainTy q.2.1 ∧ PlainTy q.2.2.1 ∧ label n d c ++ "_" ++ toString i = symName q.1 q.2.1 q.2.2.1 q.2.2.2 :=
    ⟨(n, d, c, i), hd, hc, rfl⟩
  rw [dif_pos hex]
  obtain ⟨h1, h2, h3⟩ := hex.choose_spec
  obtain ⟨⟨e1, e2, e3⟩, e4⟩ := (C76_symbol_injective (i := i) hd hc h1 h2).mp h3
  rw [← e1, ← e2, ← e3, ← e4]

/-- **C76 (confusions).** With other names of types different boxes get the same label: an underscore is taken for the separator of domain and codomain, a dot
for an adjoint, an at sign for a product, and the empty name for the empty type. -/
theorem C76_label_injective_refuted :
    label "f_n" [] [⟨"s", 0⟩] = label "f" [⟨"n_", 0⟩] [⟨"s", 0⟩] ∧
    label "f" [] [⟨"n.l", 0⟩] = label "f" [] [⟨"n", -1⟩] ∧
    label "f" [] [⟨"n@s", 0⟩] = label "f" [] [⟨"n", 0⟩, ⟨"s", 0⟩] ∧
    label "f" [] [⟨"", 0⟩] = label "f" [] [] := by decide +kernel

/-- The dimension of a type: the product over its atomic types. -/
def volume (dim : String → List Nat) (t : Ty) : Nat := (t.map (fun o => (dim o.name).prod)).prod

theorem volume_append (dim : String → List Nat) (t u : Ty) : volume dim (t ++ u) = volume dim t * volume dim u := by
  simp [volume]

theorem dims_eq {obMap : String → Option (List Nat)} {dim : String → List Nat} : ∀ {t : Ty}, (∀ o ∈ t, obMap o.name = some (dim o.name)) →
    dims obMap t = .ok ((t.map (fun o => if o.z % 2 = 0 then dim o.name else (dim o.name).reverse)).flatten)
  | [], _ => rfl
  | o :: t, h => by
      rw [dims, h o (by simp)]
      simp only [dims_eq (fun p hp => h p (List.mem_cons_of_mem _ hp))]
      rfl

theorem dims_prod (dim : String → List Nat) (t : Ty) :
    ((t.map (fun o => if o.z % 2 = 0 then dim o.name else (dim o.name).reverse)).flatten).prod = volume dim t := by
  induction t with
  | nil => rfl
  | cons o t ih =>
    simp only [List.map_cons, List.flatten_cons, List.prod_append, ih, volume, List.prod_cons]
    split
    · rfl
    · rw [List.prod_reverse]

theorem directed_eq (dom cod : Ty) :
    directed dom cod = (cod.filter (fun o => o.z % 2 ≠ 0) ++ dom.filter (fun o => o.z % 2 = 0),
      cod.filter (fun o => o.z % 2 = 0) ++ dom.filter (fun o => o.z % 2 ≠ 0)) := by
  have h1 : ∀ (cod : Ty) (a b : Ty), cod.foldl (fun p o => if o.z % 2 ≠ 0 then (p.1 ++ [o], p.2) else (p.1, p.2 ++ [o])) (a, b) =
      (a ++ cod.filter (fun o => o.z % 2 ≠ 0), b ++ cod.filter (fun o => o.z % 2 = 0)) := by
    intro cod
    induction cod with
    | nil => simp
    | cons o t ih =>
      intro a b
      rw [List.foldl_cons]
      by_cases h : o.z % 2 = 0
      · rw [if_neg (by simp [h]), ih]; simp [h]
      · rw [if_pos h, ih]; simp [h]
  have h2 : ∀ (dom : Ty) (a b : Ty), dom.foldl (fun p o => if o.z % 2 ≠ 0 then (p.1, p.2 ++ [o]) else (p.1 ++ [o], p.2)) (a, b) =
      (a ++ dom.filter (fun o => o.z % 2 = 0), b ++ dom.filter (fun o => o.z % 2 ≠ 0)) := by
    intro dom
    induction dom with
    | nil => simp
    | cons o t ih =>
      intro a b
      rw [List.foldl_cons]
      by_cases h : o.z % 2 = 0
      · rw [if_neg (by simp [h]), ih]; simp [h]
      · rw [if_pos h, ih]; simp [h]
  rw [directed]
  simp only [h1, h2, List.nil_append]

theorem volume_parts (dim : String → List Nat) (t : Ty) :
    volume dim (t.filter (fun o => o.z % 2 ≠ 0)) * volume dim (t.filter (fun o => o.z % 2 = 0)) = volume dim t := by
  induction t with
  | nil => rfl
  | cons o t ih =>
    by_cases h : o.z % 2 = 0
    · simp only [List.filter_cons, h, volume, List.map_cons, List.prod_cons, decide_true, if_true, ne_eq, not_true_eq_false, decide_false,
        Bool.false_eq_true, if_false] at ih ⊢
      rw [← ih]; ring
    · simp only [List.filter_cons, h, volume, List.map_cons, List.prod_cons, decide_true, if_true, ne_eq, not_false_eq_true, decide_false,
        Bool.false_eq_true, if_false] at ih ⊢
      rw [← ih]; ring

/-- **C76 (tensors).** A box becomes a box of the same name whose domain and codomain have the dimensions of the types, and whose data is the symbol with
the label of the box; the symbol has as many entries as the tensor. The directed domain has the dimension of the inputs with even and the outputs with odd
winding number, the directed codomain that of the others. -/
theorem C76_tensor (obMap : String → Option (List Nat)) (dim : String → List Nat) (n : String) (d c : Ty)
    (h : ∀ o ∈ d ++ c, obMap o.name = some (dim o.name)) :
    ∃ b, tensorAr obMap n d c = .ok b ∧ b.name = n ∧ b.data.name = label n d c ∧
      b.dom = (d.map (fun o => if o.z % 2 = 0 then dim o.name else (dim o.name).reverse)).flatten ∧
      b.cod = (c.map (fun o => if o.z % 2 = 0 then dim o.name else (dim o.name).reverse)).flatten ∧
      b.data.size = b.dom.prod * b.cod.prod ∧
      b.data.directedDom = volume dim (c.filter (fun o => o.z % 2 ≠ 0)) * volume dim (d.filter (fun o => o.z % 2 = 0)) ∧
      b.data.directedCod = volume dim (c.filter (fun o => o.z % 2 = 0)) * volume dim (d.filter (fun o => o.z % 2 ≠ 0)) := by
  have hd : ∀ o ∈ d, obMap o.name = some (dim o.name) := fun o ho => h o (List.mem_append_left _ ho)
  have hc : ∀ o ∈ c, obMap o.name = some (dim o.name) := fun o ho => h o (List.mem_append_right _ ho)
  have h1 : ∀ o ∈ (directed d c).1, obMap o.name = some (dim o.name) := by
    rw [directed_eq]
    intro o ho
    rcases List.mem_append.mp ho with ho | ho
    · exact hc o (List.mem_of_mem_filter ho)
    · exact hd o (List.mem_of_mem_filter ho)
  have h2 : ∀ o ∈ (directed d c).2, obMap o.name = some (dim o.name) := by
    rw [directed_eq]
    intro o ho
    rcases List.mem_append.mp ho with ho | ho
    · exact hc o (List.mem_of_mem_filter ho)
    · exact hd o (List.mem_of_mem_filter ho)
  rw [tensorAr, dims_eq h1, QBox.bind_ok, dims_eq h2, QBox.bind_ok, dims_eq hd, QBox.bind_ok, dims_eq hc, QBox.bind_ok]
  refine ⟨_, rfl, rfl, rfl, rfl, rfl, ?_, ?_, ?_⟩
  · simp only [Sym.size, dims_prod, directed_eq, volume_append]
    rw [← volume_parts dim c, ← volume_parts dim d]
    ring
  · simp only [dims_prod, directed_eq, volume_append]
  · simp only [dims_prod, directed_eq, volume_append]

/-- **C76 (unknown types).** A type without dimension raises `KeyError`. -/
theorem C76_unknown (obMap : String → Option (List Nat)) (n : String) (d c : Ty) (o : Ob) (ho : o ∈ d ++ c) (hn : obMap o.name = none) :
    tensorAr obMap n d c = .error .keyError := by
  have aux : ∀ t : Ty, (∃ k, dims obMap t = .ok k) ∨ dims obMap t = .error .keyError := by
    intro t
    induction t with
    | nil => exact .inl ⟨[], rfl⟩
    | cons p t ih =>
      rw [dims]
      cases obMap p.name with
      | none => exact .inr rfl
      | some k => rcases ih with ⟨m, e⟩ | e <;> rw [e] <;> simp
  have aux2 : ∀ t : Ty, o ∈ t → dims obMap t = .error .keyError := by
    intro t
    induction t with
    | nil => intro h; cases h
    | cons p t ih =>
      intro h
      rw [dims]
      rcases List.mem_cons.mp h with rfl | h
      · rw [hn]
      · cases obMap p.name with
        | none => rfl
        | some k => rw [ih h]
  have hm : o ∈ (directed d c).1 ∨ o ∈ (directed d c).2 := by
    rw [directed_eq]
    simp only [List.mem_append, List.mem_filter, decide_eq_true_eq] at ho ⊢
    tauto
  rw [tensorAr]
  rcases hm with hm | hm
  · rw [aux2 _ hm]; rfl
  · rcases aux (directed d c).1 with ⟨k, e⟩ | e <;> rw [e]
    · rw [QBox.bind_ok, aux2 _ hm]; rfl
    · rfl

/-! ## Cases that meet the hypotheses -/

/-- A transitive verb. -/
def tv : Ty := [⟨"n", 1⟩, ⟨"s", 0⟩, ⟨"n", -1⟩]
theorem tv_plain : PlainTy tv := by
  intro o ho
  simp only [tv, List.mem_cons, List.not_mem_nil, or_false] at ho
  rcases ho with rfl | rfl | rfl <;> exact ⟨by decide, by decide, by decide, by decide⟩
example : PlainTy [] := fun _ h => nomatch h
example : label "loves" [] tv = "loves__n.r@s@n.l" := by decide +kernel
example : label "New York: a, b" [] [⟨"n", 0⟩] = "New\\ York\\:\\ a\\,\\ b__n" := by decide +kernel
example : symName "loves" [] tv 12 = "loves__n.r@s@n.l_12" := by decide +kernel
example : ∀ o ∈ [] ++ tv, QBox.iqpExample.obMap o.name = some ((fun _ => 1) o.name) := by
  intro o ho
  simp only [tv, List.nil_append, List.mem_cons, List.not_mem_nil, or_false] at ho
  rcases ho with rfl | rfl | rfl <;> simp [QBox.iqpExample]

end Label
end Lambeq
