import Verif.Ccg.CatProps

/-!
# C28: categories as pregroup types; `split`, `replace`, `replace_result`
-/

namespace Lambeq
namespace Cat
set_option linter.unusedSimpArgs false

/-! ## Specification: argument contexts

`plug [(d₁,A₁),…,(dₙ,Aₙ)] X` is the category `(…(X|ₙAₙ)…)|₁A₁`: `X` wrapped in arguments, the
outermost one first.  `true` is `/`, `false` is `\`. -/

abbrev Ctx := List (Bool × Cat)

def plug : Ctx → Cat → Cat
  | [], x => x
  | (d, a) :: k, x => slash (plug k x) d a

/-- The wires of the arguments taken on the left, `A.r` for each `\A`, outermost first. -/
def ctxL : Ctx → Ty
  | [] => []
  | (true, _) :: k => ctxL k
  | (false, a) :: k => Ty.r a.toTy ++ ctxL k

/-- The wires of the arguments taken on the right, `A.l` for each `/A`, innermost first. -/
def ctxR : Ctx → Ty
  | [] => []
  | (true, a) :: k => ctxR k ++ Ty.l a.toTy
  | (false, _) :: k => ctxR k

/-- `d` is admitted by the direction character `c`: `|` admits both slashes. -/
def Admits (c : Char) (d : Bool) : Prop := c = '|' ∨ (c = '/' ∧ d = true) ∨ (c = '\\' ∧ d = false)

/-- No empty subcategory. -/
def NoEmpty : Cat → Prop
  | empty => False
  | atom _ => True
  | over x y => x.NoEmpty ∧ y.NoEmpty
  | under x y => x.NoEmpty ∧ y.NoEmpty

/-! ## Proofs -/

theorem toTy_plug (k : Ctx) (x : Cat) : (plug k x).toTy = ctxL k ++ x.toTy ++ ctxR k := by
  induction k with
  | nil => simp [plug, ctxL, ctxR]
  | cons e k ih =>
    obtain ⟨d, a⟩ := e
    cases d <;> simp [plug, slash, toTy, ih, ctxL, ctxR]

def size : Cat → Nat
  | over x y => x.size + y.size + 1
  | under x y => x.size + y.size + 1
  | _ => 0

theorem size_plug (k : Ctx) (x : Cat) : x.size + k.length ≤ (plug k x).size := by
  induction k with
  | nil => simp [plug]
  | cons e k ih =>
    obtain ⟨d, a⟩ := e
    cases d <;> simp [plug, slash, size] <;> omega

theorem plug_append (k k' : Ctx) (x : Cat) : plug (k ++ k') x = plug k (plug k' x) := by
  induction k with
  | nil => rfl
  | cons e k ih => obtain ⟨d, a⟩ := e; simp [plug, ih]

theorem splitLoop_plug (base : Cat) : ∀ (k : Ctx) (L R : Ty),
    splitLoop base L R (plug k base) = .ok (L ++ ctxL k, base.toTy, ctxR k ++ R)
  | [], L, R => by
      unfold splitLoop
      simp [plug, ctxL, ctxR]
  | (d, a) :: k, L, R => by
      have hne : plug ((d, a) :: k) base ≠ base := by
        intro h
        have h1 := size_plug ((d, a) :: k) base
        rw [h] at h1
        simp only [List.length_cons] at h1
        omega
      have ih := splitLoop_plug base k
      cases d with
      | true =>
        simp only [plug, slash, if_true] at hne ⊢
        rw [splitLoop, if_neg hne]
        simp [ih, ctxL, ctxR]
      | false =>
        simp only [plug, slash, Bool.false_eq_true, if_false] at hne ⊢
        rw [splitLoop, if_neg hne]
        simp [ih, ctxL, ctxR]

theorem splitLoop_err (base : Cat) : ∀ (cat : Cat) (L R : Ty), (∀ k, cat ≠ plug k base) →
    splitLoop base L R cat = .error .attributeError := by
  intro cat
  induction cat with
  | empty => intro L R h; unfold splitLoop; rw [if_neg (show ¬ _ = base from h [])]
  | atom n => intro L R h; unfold splitLoop; rw [if_neg (show ¬ _ = base from h [])]
  | over x y ihx ihy =>
    intro L R h; unfold splitLoop; rw [if_neg (show ¬ _ = base from h [])]
    exact ihx _ _ (fun k hk => h ((true, y) :: k) (by simp [plug, slash, hk]))
  | under x y ihx ihy =>
    intro L R h; unfold splitLoop; rw [if_neg (show ¬ _ = base from h [])]
    exact ihx _ _ (fun k hk => h ((false, y) :: k) (by simp [plug, slash, hk]))

/-- **C28** translation: peeling any number of arguments, in any mixture of directions, off a category
puts the adjoints of the backward arguments on the left (outermost first) and those of the forward
arguments on the right (innermost first) of the translated core. -/
theorem C28_toTy (k : Ctx) (x : Cat) : (plug k x).toTy = ctxL k ++ x.toTy ++ ctxR k := toTy_plug k x

/-- **C28** `split`: it succeeds exactly when `base` is what is left of `self` after taking off some
arguments, and then cuts `self`'s pregroup type in three, around `base`'s own type. -/
theorem C28_split (self base : Cat) :
    (∀ k, self = plug k base → self.split base = .ok (ctxL k, base.toTy, ctxR k)) ∧
    ((∀ k, self ≠ plug k base) → self.split base = .error .attributeError) ∧
    (∀ l m r, self.split base = .ok (l, m, r) → l ++ m ++ r = self.toTy ∧ m = base.toTy) := by
  have h1 : ∀ k, self = plug k base → self.split base = .ok (ctxL k, base.toTy, ctxR k) := by
    intro k hk
    rw [split, hk, splitLoop_plug]
    simp
  have h2 := fun h => splitLoop_err base self [] [] h
  refine ⟨h1, h2, ?_⟩
  intro l m r h
  by_cases hk : ∃ k, self = plug k base
  · obtain ⟨k, hk⟩ := hk
    rw [h1 k hk] at h
    simp only [Except.ok.injEq, Prod.mk.injEq] at h
    obtain ⟨rfl, rfl, rfl⟩ := h
    rw [hk, toTy_plug]
    exact ⟨rfl, rfl⟩
  · rw [split, h2 (fun k hk' => hk ⟨k, hk'⟩)] at h
    simp at h

/-- Full C28 also asks for injectivity of the translation.  Refuted: the order in which a left and a
right argument are taken is forgotten. -/
theorem C28_refuted_injective (x y z : Cat) :
    (over (under x y) z).toTy = (under (over x z) y).toTy ∧ over (under x y) z ≠ under (over x z) y := by
  simp [toTy]

/-! ### `replace` -/

/-- Substitute the pregroup type `R` for the basic type `n`: the wire `n.l…` becomes `R.l…`. -/
def substTy (n : String) (R : Ty) (t : Ty) : Ty :=
  t.flatMap (fun o => if o.name = n then Ty.rotate o.z R else [o])

theorem flatMap_reverse {α β : Type} (f : α → List β) (l : List α) :
    l.reverse.flatMap f = (l.flatMap (fun x => (f x).reverse)).reverse := by
  induction l with
  | nil => rfl
  | cons a t ih => simp [ih]

theorem rotOb_singleton (z : Int) (o : Ob) : Ty.rotate z [o] = [Ty.rotOb z o] := by
  simp only [Ty.rotate]; split <;> rfl

theorem rotate_append_odd (z : Int) (hz : z % 2 = 1) (a b : Ty) :
    Ty.rotate z (a ++ b) = Ty.rotate z b ++ Ty.rotate z a := by
  simp [Ty.rotate, hz]

theorem substTy_odd (n : String) (R : Ty) (z : Int) (hz : z % 2 = 1) : ∀ t : Ty,
    substTy n R (Ty.rotate z t) = Ty.rotate z (substTy n R t)
  | [] => by simp [substTy, Ty.rotate]
  | o :: t => by
      have ih := substTy_odd n R z hz t
      have e : substTy n R (o :: t) = substTy n R [o] ++ substTy n R t := by simp [substTy]
      have e2 : o :: t = [o] ++ t := rfl
      rw [e, rotate_append_odd z hz, e2, rotate_append_odd z hz, ← ih]
      have e3 : ∀ a b : Ty, substTy n R (a ++ b) = substTy n R a ++ substTy n R b := by
        intro a b; simp [substTy]
      rw [e3, rotOb_singleton]
      congr 1
      simp only [substTy, List.flatMap_cons, List.flatMap_nil, List.append_nil]
      have : (Ty.rotOb z o).name = o.name := rfl
      rw [this]
      split
      · rw [show (Ty.rotOb z o).z = o.z + z from rfl, ← Ty.rotate_rotate]
      · rw [rotOb_singleton]

theorem replace_self_eq (original replacement : Cat) : replace original replacement original = .ok replacement := by
  unfold replace; simp

theorem replace_over {o r x y : Cat} (h : over x y ≠ o) : replace o r (over x y) = (do
    let x' ← replace o r x
    let y' ← replace o r y
    .ok (over x' y')) := by
  rw [replace, if_neg h]

theorem replace_under {o r x y : Cat} (h : under x y ≠ o) : replace o r (under x y) = (do
    let x' ← replace o r x
    let y' ← replace o r y
    .ok (under x' y')) := by
  rw [replace, if_neg h]

/-- Occurrence of a category inside another. -/
inductive Occurs (o : Cat) : Cat → Prop
  | here : Occurs o o
  | overL {x y : Cat} (h : Occurs o x) : Occurs o (over x y)
  | overR {x y : Cat} (h : Occurs o y) : Occurs o (over x y)
  | underL {x y : Cat} (h : Occurs o x) : Occurs o (under x y)
  | underR {x y : Cat} (h : Occurs o y) : Occurs o (under x y)

/-- **C28** `replace`: for a category without empty parts it never fails; replacing a basic category is
substitution on the pregroup type (adjoints included); replacing what does not occur changes nothing. -/
theorem C28_replace (t : Cat) (ht : t.NoEmpty) (o r : Cat) :
    (∃ t', replace o r t = .ok t') ∧
    (¬ Occurs o t → replace o r t = .ok t) ∧
    (∀ n, o = atom n → ∀ t', replace o r t = .ok t' → t'.toTy = substTy n r.toTy t.toTy) := by
  have hsub : ∀ a b : Ty, ∀ n R, substTy n R (a ++ b) = substTy n R a ++ substTy n R b := by
    intro a b n R; simp [substTy]
  have hl : ∀ n R (a : Ty), substTy n R (Ty.l a) = Ty.l (substTy n R a) := fun n R a =>
    substTy_odd n R (-1) (by decide) a
  have hr : ∀ n R (a : Ty), substTy n R (Ty.r a) = Ty.r (substTy n R a) := fun n R a =>
    substTy_odd n R 1 (by decide) a
  have hat : ∀ n R, substTy n R [⟨n, 0⟩] = R := by
    intro n R
    simp only [substTy, List.flatMap_cons, List.flatMap_nil, List.append_nil, if_true, Ty.rotate]
    have : Ty.rotOb 0 = _root_.id := by funext o; simp [Ty.rotOb]
    simp [this]
  induction t with
  | empty => exact ht.elim
  | atom m =>
    by_cases h : atom m = o
    · subst h
      refine ⟨⟨r, replace_self_eq _ _⟩, fun hn => (hn .here).elim, ?_⟩
      intro n hn t' ht'
      rw [replace_self_eq] at ht'
      simp only [Except.ok.injEq] at ht'
      simp only [atom.injEq] at hn
      subst ht'; subst hn
      rw [toTy, hat]
    · have e : replace o r (atom m) = .ok (atom m) := by rw [replace, if_neg h]
      refine ⟨⟨_, e⟩, fun _ => e, ?_⟩
      intro n hn t' ht'
      rw [e] at ht'
      simp only [Except.ok.injEq] at ht'
      subst ht'
      have : m ≠ n := by rintro rfl; exact h hn.symm
      simp [toTy, substTy, this]
  | over x y ihx ihy =>
    obtain ⟨⟨x', hx⟩, hx2, hx3⟩ := ihx ht.1
    obtain ⟨⟨y', hy⟩, hy2, hy3⟩ := ihy ht.2
    by_cases h : over x y = o
    · subst h
      refine ⟨⟨r, replace_self_eq _ _⟩, fun hn => (hn .here).elim, ?_⟩
      intro n hn; simp at hn
    · have e : replace o r (over x y) = .ok (over x' y') := by
        rw [replace_over h, hx, hy]; rfl
      refine ⟨⟨_, e⟩, ?_, ?_⟩
      · intro hn
        have h1 := hx2 (fun hh => hn (.overL hh))
        have h2 := hy2 (fun hh => hn (.overR hh))
        rw [replace_over h, h1, h2]; rfl
      · intro n hn t' ht'
        rw [e] at ht'
        simp only [Except.ok.injEq] at ht'
        subst ht'
        simp only [toTy, hsub, hl]
        rw [hx3 n hn x' hx, hy3 n hn y' hy]
  | under x y ihx ihy =>
    obtain ⟨⟨x', hx⟩, hx2, hx3⟩ := ihx ht.1
    obtain ⟨⟨y', hy⟩, hy2, hy3⟩ := ihy ht.2
    by_cases h : under x y = o
    · subst h
      refine ⟨⟨r, replace_self_eq _ _⟩, fun hn => (hn .here).elim, ?_⟩
      intro n hn; simp at hn
    · have e : replace o r (under x y) = .ok (under x' y') := by
        rw [replace_under h, hx, hy]; rfl
      refine ⟨⟨_, e⟩, ?_, ?_⟩
      · intro hn
        have h1 := hx2 (fun hh => hn (.underL hh))
        have h2 := hy2 (fun hh => hn (.underR hh))
        rw [replace_under h, h1, h2]; rfl
      · intro n hn t' ht'
        rw [e] at ht'
        simp only [Except.ok.injEq] at ht'
        subst ht'
        simp only [toTy, hsub, hr]
        rw [hx3 n hn x' hx, hy3 n hn y' hy]

/-! ### `replace_result` -/

/-- The slash character of a direction. -/
def dirChar (d : Bool) : Char := if d then '/' else '\\'

theorem clash_iff (c : Char) (hc : c = '\\' ∨ c = '|' ∨ c = '/') (d : Bool) :
    clash (dirChar d) c = false ↔ Admits c d := by
  rcases hc with rfl | rfl | rfl <;> cases d <;> simp [clash, dirChar, Admits]

theorem aux_slash (o r : Cat) (d0 d1 : Char) (x : Cat) (d : Bool) (a : Cat) :
    replaceResultAux o r d0 d1 (slash x d a) =
      replaceResultStep o r d0 d1 x (dirChar d) (slash x d a) (fun c => slash c d a)
        (replaceResultAux o r d0 d1 x) := by
  cases d <;> rfl

theorem slash_of_complex (c : Cat) (h : c.isComplex = true) : ∃ x d a, c = slash x d a := by
  cases c with
  | over x y => exact ⟨x, true, y, rfl⟩
  | under x y => exact ⟨x, false, y, rfl⟩
  | _ => simp [isComplex] at h

theorem plug_complex (k : Ctx) (x : Cat) (d : Bool) (a : Cat) : (plug k (slash x d a)).isAtomic = false := by
  cases k with
  | nil => cases d <;> rfl
  | cons e k => obtain ⟨d', a'⟩ := e; cases d' <;> rfl

theorem replaceAux_find (o r : Cat) (d0 d1 : Char) (h0 : d0 = '\\' ∨ d0 = '|' ∨ d0 = '/')
    (h1 : d1 = '\\' ∨ d1 = '|' ∨ d1 = '/') (d : Bool) (a : Cat) (hd : Admits d0 d) :
    ∀ k : Ctx, (∀ e ∈ k, Admits d1 e.1) →
    replaceResultAux o r d0 d1 (plug k (slash o d a)) = .ok (plug k (slash r d a), some o)
  | [], _ => by
      simp only [plug, aux_slash, replaceResultStep, true_or, if_true]
      rw [(clash_iff d0 h0 d).2 hd]
      rfl
  | (d', a') :: k, hk => by
      have ih := replaceAux_find o r d0 d1 h0 h1 d a hd k (fun e he => hk e (List.mem_cons_of_mem _ he))
      have hne : plug k (slash o d a) ≠ o := by
        intro h
        have hs := size_plug k (slash o d a)
        rw [h] at hs
        have : o.size < (slash o d a).size := by cases d <;> simp [slash, size] <;> omega
        omega
      have hna := plug_complex k o d a
      simp only [plug, aux_slash, replaceResultStep, hne, hna, Bool.false_eq_true, or_self, if_false,
        (clash_iff d1 h1 d').2 (hk (d', a') (by simp)), ih]

theorem replaceAux_sound (o r : Cat) (d0 d1 : Char) (h0 : d0 = '\\' ∨ d0 = '|' ∨ d0 = '/')
    (h1 : d1 = '\\' ∨ d1 = '|' ∨ d1 = '/') : ∀ (self new : Cat) (old : Option Cat),
    replaceResultAux o r d0 d1 self = .ok (new, old) →
    (old = none ∧ new = self) ∨ ∃ x d a k, old = some x ∧ self = plug k (slash x d a) ∧
      new = plug k (slash r d a) ∧ Admits d0 d ∧ ∀ e ∈ k, Admits d1 e.1 := by
  have step : ∀ (x : Cat) (d : Bool) (a : Cat),
      (∀ new old, replaceResultAux o r d0 d1 x = .ok (new, old) →
        (old = none ∧ new = x) ∨ ∃ x' d a k, old = some x' ∧ x = plug k (slash x' d a) ∧
        new = plug k (slash r d a) ∧ Admits d0 d ∧ ∀ e ∈ k, Admits d1 e.1) →
      ∀ new old, replaceResultAux o r d0 d1 (slash x d a) = .ok (new, old) →
      (old = none ∧ new = slash x d a) ∨ ∃ x' d' a' k, old = some x' ∧ slash x d a = plug k (slash x' d' a') ∧
        new = plug k (slash r d' a') ∧ Admits d0 d' ∧ ∀ e ∈ k, Admits d1 e.1 := by
    intro x d a ih new old h
    have here : ∀ new old, (if clash (dirChar d) d0 = true then
          (.ok (slash x d a, none) : Except PyErr (Cat × Option Cat))
        else .ok (slash r d a, some x)) = .ok (new, old) →
        (old = none ∧ new = slash x d a) ∨ ∃ x' d' a' k, old = some x' ∧
        slash x d a = plug k (slash x' d' a') ∧
        new = plug k (slash r d' a') ∧ Admits d0 d' ∧ ∀ e ∈ k, Admits d1 e.1 := by
      intro new old h
      split at h
      · simp only [Except.ok.injEq, Prod.mk.injEq] at h
        exact .inl ⟨h.2.symm, h.1.symm⟩
      · next hc =>
        simp only [Except.ok.injEq, Prod.mk.injEq] at h
        exact .inr ⟨x, d, a, [], h.2.symm, rfl, h.1.symm,
          (clash_iff d0 h0 d).1 (by simpa using hc), by simp⟩
    rw [aux_slash] at h
    simp only [replaceResultStep] at h
    split at h
    · exact here _ _ h
    · split at h
      · exact here _ _ h
      · next hc =>
        split at h
        · simp at h
        · exact here _ _ h
        · next new' old' hi =>
          simp only [Except.ok.injEq, Prod.mk.injEq] at h
          obtain ⟨rfl, rfl⟩ := h
          rcases ih _ _ hi with ⟨hh, _⟩ | ⟨x', d', a', k, e1, e2, e3, e4, e5⟩
          · simp at hh
          · right
            refine ⟨x', d', a', (d, a) :: k, e1, by rw [e2]; rfl, by rw [e3]; rfl, e4, ?_⟩
            intro e he
            rcases List.mem_cons.1 he with rfl | he
            · exact (clash_iff d1 h1 _).1 (by simpa using hc)
            · exact e5 e he
  intro self
  induction self with
  | empty => intro new old h; simp [replaceResultAux] at h
  | atom n =>
    intro new old h
    simp only [replaceResultAux, Except.ok.injEq, Prod.mk.injEq] at h
    exact .inl ⟨h.2.symm, h.1.symm⟩
  | over x y ihx _ => exact fun new old h => step x true y ihx new old h
  | under x y ihx _ => exact fun new old h => step x false y ihx new old h

theorem replaceAux_total (o r : Cat) (d0 d1 : Char) : ∀ self : Cat, self.NoEmpty →
    ∃ p, replaceResultAux o r d0 d1 self = .ok p := by
  have step : ∀ (x : Cat) (d : Bool) (a : Cat), (∃ p, replaceResultAux o r d0 d1 x = .ok p) →
      ∃ p, replaceResultAux o r d0 d1 (slash x d a) = .ok p := by
    rintro x d a ⟨⟨n, old⟩, hp⟩
    rw [aux_slash]
    simp only [replaceResultStep, hp]
    have here : ∃ p, (if clash (dirChar d) d0 = true then
          (.ok (slash x d a, none) : Except PyErr (Cat × Option Cat))
        else .ok (slash r d a, some x)) = .ok p := by
      split <;> exact ⟨_, rfl⟩
    split
    · exact here
    · split
      · exact here
      · cases old with
        | none => exact here
        | some v => exact ⟨_, rfl⟩
  intro self
  induction self with
  | empty => exact fun h => h.elim
  | atom n => exact fun _ => ⟨_, rfl⟩
  | over x y ihx _ => exact fun h => step x true y (ihx h.1)
  | under x y ihx _ => exact fun h => step x false y (ihx h.1)

/-- With no direction requirement, the innermost result is replaced when `original` is absent. -/
theorem replaceAux_innermost (o r : Cat) : ∀ self : Cat, self.NoEmpty → self.isComplex = true →
    (∀ k d a, self ≠ plug k (slash o d a)) →
    ∃ k d a n, self = plug k (slash (atom n) d a) ∧
      replaceResultAux o r '|' '|' self = .ok (plug k (slash r d a), some (atom n)) := by
  have step : ∀ (x : Cat) (d : Bool) (a : Cat), x.NoEmpty →
      (x.isComplex = true → (∀ k d a, x ≠ plug k (slash o d a)) → ∃ k d a n, x = plug k (slash (atom n) d a) ∧
        replaceResultAux o r '|' '|' x = .ok (plug k (slash r d a), some (atom n))) →
      (∀ k d' a', slash x d a ≠ plug k (slash o d' a')) →
      ∃ k d' a' n, slash x d a = plug k (slash (atom n) d' a') ∧
        replaceResultAux o r '|' '|' (slash x d a) = .ok (plug k (slash r d' a'), some (atom n)) := by
    intro x d a hx ih hno
    have hcl : clash (dirChar d) '|' = false := by cases d <;> rfl
    have hxo : x ≠ o := fun h => hno [] d a (by rw [h]; rfl)
    cases hxa : x with
    | empty => rw [hxa] at hx; exact hx.elim
    | atom n =>
      refine ⟨[], d, a, n, rfl, ?_⟩
      simp [aux_slash, replaceResultStep, isAtomic, hcl, plug]
    | over p q =>
      obtain ⟨k, d', a', n, e1, e2⟩ := ih (by rw [hxa]; rfl) (fun k d' a' h => hno ((d, a) :: k) d' a' (by rw [h]; rfl))
      rw [hxa] at e1 e2 hxo
      refine ⟨(d, a) :: k, d', a', n, by rw [e1]; rfl, ?_⟩
      rw [aux_slash]
      simp [replaceResultStep, isAtomic, hcl, e2, hxo, plug]
    | under p q =>
      obtain ⟨k, d', a', n, e1, e2⟩ := ih (by rw [hxa]; rfl) (fun k d' a' h => hno ((d, a) :: k) d' a' (by rw [h]; rfl))
      rw [hxa] at e1 e2 hxo
      refine ⟨(d, a) :: k, d', a', n, by rw [e1]; rfl, ?_⟩
      rw [aux_slash]
      simp [replaceResultStep, isAtomic, hcl, e2, hxo, plug]
  intro self
  induction self with
  | empty => exact fun h => h.elim
  | atom n => intro _ h; simp [isComplex] at h
  | over x y ihx _ => exact fun h _ hno => step x true y h.1 (ihx h.1) hno
  | under x y ihx _ => exact fun h _ hno => step x false y h.1 (ihx h.1) hno

/-- The two direction characters of a `direction` string of length 1 or 2 (ccg_type.py:427-432). -/
def DirSpec (direction : List Char) (inner rest : Char) : Prop :=
  (direction = [inner] ∧ rest = inner ∨ direction = [inner, rest]) ∧
  (inner = '\\' ∨ inner = '|' ∨ inner = '/') ∧ (rest = '\\' ∨ rest = '|' ∨ rest = '/')

theorem replaceResult_eq {direction : List Char} {d0 d1 : Char} (h : DirSpec direction d0 d1)
    (self o r : Cat) : replaceResult self o r direction = replaceResultAux o r d0 d1 self := by
  obtain ⟨h, h0, h1⟩ := h
  have or3 : ∀ c : Char, (c = '\\' ∨ c = '|' ∨ c = '/') → (c = '\\' ∨ c = '|' ∨ c = '/') := fun _ h => h
  rcases h with ⟨rfl, rfl⟩ | rfl
  · rw [replaceResult, if_neg]
    · simp only [List.length_singleton, List.mem_singleton, forall_eq, Classical.not_not]
      exact ⟨.inl trivial, h0⟩
  · rw [replaceResult, if_neg]
    · simp only [List.length_cons, List.length_nil, List.mem_cons, List.not_mem_nil, or_false, Classical.not_not]
      refine ⟨.inr trivial, ?_⟩
      rintro c (rfl | rfl)
      · exact h0
      · exact h1

/-- **C28** `replace_result`: whenever it reports a replaced category `old`, `self` is `old` wrapped in
arguments, of which the innermost slash is admitted by the first direction character and all others by
the last, and the new category has `replacement` in that very place; otherwise `self` comes back
unchanged.  Accordingly the pregroup types agree outside the replaced part. -/
theorem C28_replace_result_sound (self o r new : Cat) (old : Option Cat) (direction : List Char)
    (d0 d1 : Char) (hd : DirSpec direction d0 d1) (h : replaceResult self o r direction = .ok (new, old)) :
    (old = none ∧ new = self) ∨
    ∃ x d a k, old = some x ∧ self = plug k (slash x d a) ∧ new = plug k (slash r d a) ∧
      Admits d0 d ∧ (∀ e ∈ k, Admits d1 e.1) ∧
      ∃ L R, self.toTy = L ++ x.toTy ++ R ∧ new.toTy = L ++ r.toTy ++ R := by
  rw [replaceResult_eq hd] at h
  rcases replaceAux_sound o r d0 d1 hd.2.1 hd.2.2 _ _ _ h with h | ⟨x, d, a, k, e1, e2, e3, e4, e5⟩
  · exact .inl h
  · refine .inr ⟨x, d, a, k, e1, e2, e3, e4, e5, ctxL (k ++ [(d, a)]), ctxR (k ++ [(d, a)]), ?_, ?_⟩
    · rw [e2, ← toTy_plug, plug_append]; rfl
    · rw [e3, ← toTy_plug, plug_append]; rfl

/-- **C28** `replace_result`, completeness: if `original` is the result somewhere down `self`'s spine, at
a place whose slashes the direction string admits, then exactly that place is replaced. -/
theorem C28_replace_result_found (o r : Cat) (k : Ctx) (d : Bool) (a : Cat) (direction : List Char)
    (d0 d1 : Char) (hd : DirSpec direction d0 d1) (h0 : Admits d0 d) (h1 : ∀ e ∈ k, Admits d1 e.1) :
    replaceResult (plug k (slash o d a)) o r direction = .ok (plug k (slash r d a), some o) := by
  rw [replaceResult_eq hd]
  exact replaceAux_find o r d0 d1 hd.2.1 hd.2.2 d a h0 k h1

/-- **C28** `replace_result`, leniency: without direction requirement, a category whose spine does not
contain `original` has its innermost (basic) result replaced; without empty parts nothing raises. -/
theorem C28_replace_result_lenient (self o r : Cat) (hne : self.NoEmpty) (direction : List Char)
    (d0 d1 : Char) (hd : DirSpec direction d0 d1) :
    (∃ p, replaceResult self o r direction = .ok p) ∧
    (direction = ['|'] → self.isComplex = true → (∀ k d a, self ≠ plug k (slash o d a)) →
      ∃ k d a n, self = plug k (slash (atom n) d a) ∧
        replaceResult self o r ['|'] = .ok (plug k (slash r d a), some (atom n))) := by
  refine ⟨?_, ?_⟩
  · rw [replaceResult_eq hd]; exact replaceAux_total o r d0 d1 self hne
  · rintro rfl hc hno
    have hd' : DirSpec ['|'] '|' '|' := ⟨.inl ⟨rfl, rfl⟩, by simp, by simp⟩
    rw [replaceResult_eq hd']
    exact replaceAux_innermost o r self hne hc hno

/-- A direction string of another shape is refused. -/
theorem C28_replace_result_direction (self o r : Cat) (direction : List Char)
    (h : ¬ ∃ d0 d1, DirSpec direction d0 d1) : replaceResult self o r direction = .error .valueError := by
  unfold replaceResult
  by_cases hh : ((direction.length = 1 ∨ direction.length = 2) ∧ ∀ c ∈ direction, c = '\\' ∨ c = '|' ∨ c = '/')
  · exfalso; apply h
    match direction, hh with
    | [a], hh => exact ⟨a, a, .inl ⟨rfl, rfl⟩, hh.2 a (by simp), hh.2 a (by simp)⟩
    | [a, b], hh => exact ⟨a, b, .inr rfl, hh.2 a (by simp), hh.2 b (by simp)⟩
    | [], hh => simp at hh
    | a :: b :: c :: t, hh => simp at hh
  · rw [if_pos hh]

/-- Non-vacuity, the docstring's Examples 1 and 4 (ccg_type.py:452-478). -/
example : replaceResult (under (under (atom "c") (atom "b")) (atom "a")) (under (atom "c") (atom "b"))
      (atom "x") ['|'] = .ok (under (atom "x") (atom "a"), some (under (atom "c") (atom "b"))) ∧
    replaceResult (under (over (atom "c") (atom "b")) (atom "a")) (atom "x") (atom "y") ['/', '|']
      = .ok (under (over (atom "y") (atom "b")) (atom "a"), some (atom "c")) := by
  decide +kernel

example : (over (under (atom "X") (atom "Y")) (atom "Z")).split (atom "X") =
    .ok ([⟨"Y", 1⟩], [⟨"X", 0⟩], [⟨"Z", -1⟩]) := by decide +kernel

end Cat
end Lambeq
