import Verif.Grammar.Json
import Verif.Grammar.SwapProps
import Verif.Grammar.FunctorProps

/-!
# JSON round trips: C21, C22
-/

namespace Lambeq
set_option linter.unusedSimpArgs false
open Json

theorem allToJson_eq (ts : List RTy) : RTy.allToJson ts = ts.map (RTy.toJson false) := by
  induction ts with
  | nil => simp [RTy.allToJson]
  | cons t ts ih => simp [RTy.allToJson, ih]

theorem mapM_ok_iff {α β : Type} (f : α → Except PyErr β) (l : List α) (r : List β) :
    l.mapM f = .ok r ↔ List.Forall₂ (fun a b => f a = .ok b) l r := by
  induction l generalizing r with
  | nil =>
    rw [List.mapM_nil]
    constructor
    · intro h; cases h; exact .nil
    · intro h; cases h; rfl
  | cons a l ih =>
    rw [List.mapM_cons]
    constructor
    · intro h
      rw [Functor.bind_ok_iff] at h
      obtain ⟨x, h1, h2⟩ := h
      rw [Functor.bind_ok_iff] at h2
      obtain ⟨xs, h3, h4⟩ := h2
      cases h4
      exact .cons h1 ((ih xs).1 h3)
    · intro h
      cases h with
      | cons h1 h2 =>
        rw [h1, ok_bind, (ih _).2 h2]; rfl

/-- Decoding succeeds only on the right value. -/
theorem RTy.fromJson_atom (n : Nat) (top : Bool) (o : Ob) :
    RTy.fromJson (n + 1) (RTy.toJson top (RTy.atom o)) = .ok (RTy.atom o) := by
  cases top <;>
  simp [RTy.fromJson, RTy.toJson, RTy.atom, popEntity, field, cat, List.lookup, kwargs, numD, asArr, asNum,
    RTy.allToJson, RTy.make, RTy.isAtomic, RTy.objects, RTy.name, ok_bind, Except.bind, pure, Except.pure]

theorem RTy.fromJson_ofTy (n : Nat) (top : Bool) (t : Ty) :
    RTy.fromJson (n + 2) (RTy.toJson top (RTy.ofTy t)) = .ok (RTy.ofTy t) := by
  match t with
  | [] =>
    cases top <;>
    simp [RTy.ofTy, RTy.fromIter, RTy.empty, RTy.fromJson, RTy.toJson, RTy.atom, popEntity, field, cat, List.lookup,
      kwargs, numD, asArr, asNum, RTy.allToJson, RTy.make, RTy.isAtomic, RTy.objects, RTy.name, ok_bind,
      Except.bind, pure, Except.pure]
  | [o] => exact RTy.fromJson_atom (n + 1) top o
  | a :: b :: t =>
    have h : (RTy.allToJson ((a :: b :: t).map RTy.atom)).mapM (RTy.fromJson (n + 1))
        = .ok ((a :: b :: t).map RTy.atom) := by
      rw [mapM_ok_iff, allToJson_eq, List.map_map]
      generalize a :: b :: t = l
      induction l with
      | nil => exact .nil
      | cons o l ih => exact .cons (RTy.fromJson_atom n false o) ih
    have e : RTy.ofTy (a :: b :: t) = .mk none ((a :: b :: t).map RTy.atom) 0 := by
      simp [RTy.ofTy, RTy.fromIter]
    rw [e]
    generalize hl : (a :: b :: t).map RTy.atom = l at h
    have hlen : l.length ≠ 1 := by rw [← hl]; simp
    have hne : l ≠ [] := by rw [← hl]; simp
    rw [RTy.fromJson]
    cases top <;>
    simp [RTy.toJson, popEntity, field, cat, List.lookup, kwargs, numD, asArr, asNum, h,
      RTy.make, RTy.isAtomic, RTy.objects, RTy.name, ok_bind, Except.bind, pure, Except.pure, hlen, hne]

theorem tyFromJson_ok {n : Nat} (hn : 2 ≤ n) (t : Ty) : tyFromJson n (tyToJson t) = .ok t := by
  obtain ⟨m, rfl⟩ := Nat.exists_eq_add_of_le' hn
  simp [tyFromJson, tyToJson, RTy.fromJson_ofTy, Except.map, RTy.atoms_ofTy]

theorem tyFromJson_inv {n : Nat} {t x : Ty} (h : tyFromJson n (tyToJson t) = .ok x) : x = t := by
  by_cases hn : 2 ≤ n
  · rw [tyFromJson_ok hn] at h; injection h with h; exact h.symm
  · match n, hn with
    | 0, _ => simp [tyFromJson, RTy.fromJson, Except.map] at h
    | 1, _ =>
      match t with
      | [] =>
        have e : tyFromJson 1 (tyToJson []) = .ok [] := by
          simp [tyFromJson, tyToJson, RTy.ofTy, RTy.fromIter, RTy.empty, RTy.fromJson, RTy.toJson, RTy.atom,
            popEntity, field, cat, List.lookup,
            kwargs, numD, asArr, asNum, RTy.allToJson, RTy.make, RTy.isAtomic, RTy.objects, RTy.name, ok_bind,
            Except.bind, pure, Except.pure, Except.map, RTy.atoms, RTy.iter]
        rw [e] at h; injection h with h; exact h.symm
      | [o] =>
        have e : tyFromJson 1 (tyToJson [o]) = .ok [o] := by
          have := RTy.fromJson_atom 0 false o
          simp only [Nat.zero_add] at this
          simp [tyFromJson, tyToJson, RTy.ofTy, RTy.fromIter, this, Except.map, RTy.atoms, RTy.iter_atom,
            RTy.atomOf_atom]
        rw [e] at h; injection h with h; exact h.symm
      | a :: b :: t =>
        have e : RTy.ofTy (a :: b :: t) = .mk none ((a :: b :: t).map RTy.atom) 0 := by
          simp [RTy.ofTy, RTy.fromIter]
        simp [tyFromJson, tyToJson, e, RTy.fromJson, RTy.toJson, popEntity, field, cat, List.lookup, asArr,
          ok_bind, err_bind, Except.bind, pure, Except.pure, RTy.allToJson, List.mapM_cons, Except.map] at h
    | n + 2, hn => omega

namespace Box

/-- A plain box: exactly the class `Box`. -/
def IsGen : Box → Prop
  | gen _ _ _ _ => True
  | _ => False

/-- Boxes whose encoding can be decoded again: everything except a dagger of something that is not a
plain box. -/
def Enc : Box → Prop
  | daggered b => b.IsGen
  | _ => True

/-- `cls.from_json` where `cls` is the class of the encoded box. -/
def classFromJson (n : Nat) (b : Box) (j : Json) : Except PyErr Box :=
  match b with
  | gen _ _ _ _ => genFromJson n j
  | word _ _ _ => wordFromJson n j
  | cup _ _ _ => cupFromJson n j
  | cap _ _ _ => capFromJson n j
  | swap _ _ => swapFromJson n j
  | spider _ _ _ => spiderFromJson n j
  | daggered _ => daggeredFromJson n j

theorem genFromJson_ok {n : Nat} (hn : 2 ≤ n) (top : Bool) (nm : String) (d c : Ty) (z : Int) :
    genFromJson n (toJson top (gen nm d c z)) = .ok (gen nm d c z) := by
  cases top <;>
  simp [genFromJson, toJson, popEntity, field, cat, List.lookup, kwargs, numD, asNum, asStr, ok_bind, Except.bind,
    tyFromJson_ok hn]

theorem daggeredFromJson_eq (n : Nat) (top : Bool) (b : Box) :
    daggeredFromJson n (toJson top (daggered b)) = (genFromJson n (toJson false b)).map Box.dagger := by
  simp only [toJson]
  generalize toJson false b = j
  cases top <;>
  simp only [daggeredFromJson, popEntity, field, cat, List.lookup, Except.bind] <;>
  simp [ok_bind] <;> cases genFromJson n j <;> rfl

theorem classFromJson_ok {n : Nat} (hn : 2 ≤ n) (top : Bool) {b : Box} (hv : b.Valid) (he : b.Enc) :
    classFromJson n b (toJson top b) = .ok b := by
  cases b with
  | gen nm d c z => exact genFromJson_ok hn top nm d c z
  | word nm c z =>
    cases top <;>
    simp [classFromJson, wordFromJson, toJson, popEntity, field, cat, List.lookup, kwargs, numD, asNum, asStr,
      ok_bind, Except.bind, tyFromJson_ok hn]
  | cup l r rev =>
    simp only [Valid] at hv
    cases top <;>
    simp [classFromJson, cupFromJson, toJson, popEntity, field, cat, List.lookup, kwargs, boolD, asBool, asStr,
      ok_bind, Except.bind, tyFromJson_ok hn, atomicCup, hv]
  | cap l r rev =>
    simp only [Valid] at hv
    cases top <;>
    simp [classFromJson, capFromJson, toJson, popEntity, field, cat, List.lookup, kwargs, boolD, asBool, asStr,
      ok_bind, Except.bind, tyFromJson_ok hn, atomicCap, hv]
  | swap l r =>
    cases top <;>
    simp [classFromJson, swapFromJson, toJson, popEntity, field, cat, List.lookup, kwargs, boolD, asBool, asStr,
      ok_bind, Except.bind, tyFromJson_ok hn]
  | spider t i o =>
    have h1 : ¬ ((i : Int) < 0 ∨ (o : Int) < 0) := by omega
    cases top <;>
    simp [classFromJson, spiderFromJson, toJson, popEntity, field, cat, List.lookup, kwargs, boolD, asBool, asNum,
      ok_bind, Except.bind, tyFromJson_ok hn, h1]
  | daggered b =>
    cases b with
    | gen nm d c z =>
      have := genFromJson_ok hn false nm d c z
      simp [classFromJson, daggeredFromJson_eq, this, Except.map, Box.dagger]
    | _ => exact absurd he (by simp [Enc, IsGen])

theorem genFromJson_inv {n : Nat} {top : Bool} {b x : Box} (h : genFromJson n (toJson top b) = .ok x) :
    b.IsGen ∧ x = b := by
  cases b with
  | gen nm d c z =>
    refine ⟨trivial, ?_⟩
    cases top <;>
    (simp [genFromJson, toJson, popEntity, field, cat, List.lookup, kwargs, numD, asNum, asStr, ok_bind, err_bind,
      Except.bind, Functor.bind_ok_iff] at h
     obtain ⟨a, h1, c', h2, h3⟩ := h
     rw [← h3, tyFromJson_inv h1, tyFromJson_inv h2])
  | word nm c z =>
    cases top <;>
    simp [genFromJson, toJson, popEntity, field, cat, List.lookup, ok_bind, err_bind, Except.bind] at h
  | cup l r rev =>
    cases top <;>
    simp [genFromJson, toJson, popEntity, field, cat, List.lookup, ok_bind, err_bind, Except.bind] at h
  | cap l r rev =>
    cases top <;>
    simp [genFromJson, toJson, popEntity, field, cat, List.lookup, ok_bind, err_bind, Except.bind] at h
  | swap l r =>
    cases top <;>
    simp [genFromJson, toJson, popEntity, field, cat, List.lookup, ok_bind, err_bind, Except.bind] at h
  | spider t i o =>
    cases top <;>
    simp [genFromJson, toJson, popEntity, field, cat, List.lookup, ok_bind, err_bind, Except.bind] at h
  | daggered b =>
    cases top <;>
    simp [genFromJson, toJson, popEntity, field, cat, List.lookup, ok_bind, err_bind, Except.bind] at h

theorem classFromJson_inv {n : Nat} {top : Bool} {b x : Box} (h : classFromJson n b (toJson top b) = .ok x) :
    b.Enc ∧ x = b := by
  cases b with
  | gen nm d c z => exact ⟨trivial, (genFromJson_inv h).2⟩
  | word nm c z =>
    refine ⟨trivial, ?_⟩
    cases top <;>
    (simp [classFromJson, wordFromJson, toJson, popEntity, field, cat, List.lookup, kwargs, numD, asNum, asStr,
      ok_bind, err_bind, Except.bind, Functor.bind_ok_iff] at h
     obtain ⟨a, h1, h3⟩ := h
     rw [← h3, tyFromJson_inv h1])
  | cup l r rev =>
    refine ⟨trivial, ?_⟩
    cases top <;>
    (simp [classFromJson, cupFromJson, toJson, popEntity, field, cat, List.lookup, kwargs, boolD, asBool, asStr,
      ok_bind, err_bind, Except.bind, Functor.bind_ok_iff] at h
     obtain ⟨a, h1, c', h2, h3⟩ := h
     rw [tyFromJson_inv h1, tyFromJson_inv h2] at h3
     simp only [atomicCup] at h3
     split at h3
     · injection h3 with h3; exact h3.symm
     · simp at h3)
  | cap l r rev =>
    refine ⟨trivial, ?_⟩
    cases top <;>
    (simp [classFromJson, capFromJson, toJson, popEntity, field, cat, List.lookup, kwargs, boolD, asBool, asStr,
      ok_bind, err_bind, Except.bind, Functor.bind_ok_iff] at h
     obtain ⟨a, h1, c', h2, h3⟩ := h
     rw [tyFromJson_inv h1, tyFromJson_inv h2] at h3
     simp only [atomicCap] at h3
     split at h3
     · injection h3 with h3; exact h3.symm
     · simp at h3)
  | swap l r =>
    refine ⟨trivial, ?_⟩
    cases top <;>
    (simp [classFromJson, swapFromJson, toJson, popEntity, field, cat, List.lookup, kwargs, boolD, asBool, asStr,
      ok_bind, err_bind, Except.bind, Functor.bind_ok_iff] at h
     obtain ⟨a, h1, c', h2, h3⟩ := h
     rw [tyFromJson_inv h1, tyFromJson_inv h2] at h3
     injection h3 with h3; exact h3.symm)
  | spider t i o =>
    refine ⟨trivial, ?_⟩
    have hp : ¬ ((i : Int) < 0 ∨ (o : Int) < 0) := by omega
    cases top <;>
    (simp [classFromJson, spiderFromJson, toJson, popEntity, field, cat, List.lookup, kwargs, boolD, asBool, asNum,
      ok_bind, err_bind, Except.bind, Functor.bind_ok_iff, hp] at h
     obtain ⟨a, h1, h3⟩ := h
     rw [tyFromJson_inv h1] at h3
     injection h3 with h3; exact h3.symm)
  | daggered b =>
    simp only [classFromJson, daggeredFromJson_eq] at h
    cases hg : genFromJson n (toJson false b) with
    | error e => rw [hg] at h; simp [Except.map] at h
    | ok y =>
      rw [hg] at h
      obtain ⟨h1, rfl⟩ := genFromJson_inv hg
      simp [Except.map] at h
      refine ⟨h1, ?_⟩
      rw [← h]
      cases y <;> first | rfl | exact absurd h1 (by simp [IsGen])

end Box

end Lambeq
