import Verif.Grammar.JsonProps

/-!
# JSON round trips for frames, layers and diagrams: C21, C22
-/

namespace Lambeq
set_option linter.unusedSimpArgs false
open Json

namespace FBox

/-- Exactly the class `Frame` -/
def IsFrame : FBox → Prop
  | frame _ _ _ _ _ => True
  | _ => False

/-- The classes a frame component may have when it is not a diagram (grammar.py:2196-2205 looks the lower-cased
class name up in `special_boxes`). -/
def Special : FBox → Prop
  | base (.cup _ _ _) => True
  | base (.cap _ _ _) => True
  | base (.swap _ _) => True
  | base (.spider _ _ _) => True
  | frame _ _ _ _ _ => True
  | _ => False

mutual
/-- The boxes that survive a round trip: `Daggered` only of plain boxes, and every frame component is a
diagram, a cup, a cap, a swap, a spider or a frame. -/
def Enc : FBox → Prop
  | base b => b.Enc
  | frame _ _ _ cs _ => EncCs cs
  | daggeredFrame f => IsFrame f ∧ Enc f
def EncL : FLayer → Prop
  | .mk _ b _ => Enc b
def EncC : Comp → Prop
  | .box b => Special b ∧ Enc b
  | .diag _ _ ls => EncLs ls
def EncCs : List Comp → Prop
  | [] => True
  | c :: cs => EncC c ∧ EncCs cs
def EncLs : List FLayer → Prop
  | [] => True
  | l :: ls => EncL l ∧ EncLs ls
end

mutual
/-- Every cup and cap inside went through its constructor (C08), and `DaggeredFrame` holds a frame. -/
def Valid : FBox → Prop
  | base b => b.Valid
  | frame _ _ _ cs _ => ValidCs cs
  | daggeredFrame f => Valid f
def ValidL : FLayer → Prop
  | .mk _ b _ => Valid b
def ValidC : Comp → Prop
  | .box b => Valid b
  | .diag _ _ ls => ValidLs ls
def ValidCs : List Comp → Prop
  | [] => True
  | c :: cs => ValidC c ∧ ValidCs cs
def ValidLs : List FLayer → Prop
  | [] => True
  | l :: ls => ValidL l ∧ ValidLs ls
end

/-! ### one-step equations -/

theorem fromJson_base (n : Nat) (top : Bool) (b : Box) :
    fromJson (n + 1) (toJson top (base b)) = (Box.classFromJson n b (b.toJson top)).map base := by
  rw [fromJson]
  cases b <;> cases top <;> simp [toJson, Box.toJson, entity, field, cat, List.lookup, asStr, ok_bind, Except.bind,
    Box.classFromJson]

theorem fromJson_frame (n : Nat) (top : Bool) (nm : String) (d c : Ty) (cs : List Comp) (z : Int) :
    fromJson (n + 1) (toJson top (frame nm d c cs z)) = frameFromJson n (toJson top (frame nm d c cs z)) := by
  rw [fromJson]
  cases top <;> simp [toJson, entity, field, cat, List.lookup, asStr, ok_bind, Except.bind]

theorem fromJson_daggered (n : Nat) (top : Bool) (f : FBox) :
    fromJson (n + 1) (toJson top (daggeredFrame f)) = daggeredFrameFromJson n (toJson top (daggeredFrame f)) := by
  rw [fromJson]
  cases top <;> simp [toJson, entity, field, cat, List.lookup, asStr, ok_bind, Except.bind]

theorem frameFromJson_eq (n : Nat) (top : Bool) (nm : String) (d c : Ty) (cs : List Comp) (z : Int) :
    frameFromJson (n + 1) (toJson top (frame nm d c cs z)) = (do
      let d ← tyFromJson n (tyToJson d)
      let c ← tyFromJson n (tyToJson c)
      let cs ← (compsToJson cs).mapM (compFromJson n)
      .ok (frame nm d c cs z)) := by
  rw [frameFromJson]
  simp only [toJson]
  generalize compsToJson cs = js
  cases top <;>
  simp [popEntity, field, cat, List.lookup, kwargs, numD, asNum, asStr, asArr, ok_bind, Except.bind]

theorem daggeredFrameFromJson_eq (n : Nat) (top : Bool) (f : FBox) :
    daggeredFrameFromJson (n + 1) (toJson top (daggeredFrame f)) =
      (frameFromJson n (toJson false f)).map dagger := by
  rw [daggeredFrameFromJson]
  simp only [toJson]
  generalize toJson false f = j
  cases top <;>
  simp [popEntity, field, cat, List.lookup, ok_bind] <;> cases frameFromJson n j <;> rfl

theorem diagFromJson_eq (n : Nat) (top : Bool) (d c : Ty) (ls : List FLayer) :
    diagFromJson (n + 1) (compToJson top (.diag d c ls)) = (do
      let d ← tyFromJson n (tyToJson d)
      let c ← tyFromJson n (tyToJson c)
      let ls ← (layersToJson ls).mapM (layerFromJson n)
      .ok (.diag d c ls)) := by
  rw [diagFromJson]
  simp only [compToJson]
  generalize layersToJson ls = js
  cases top <;>
  simp [popEntity, field, cat, List.lookup, kwargs, numD, asNum, asStr, asArr, ok_bind, Except.bind]

theorem layerFromJson_eq (n : Nat) (top : Bool) (l : Ty) (b : FBox) (r : Ty) :
    layerFromJson (n + 1) (layerToJson top (.mk l b r)) = (do
      let l ← tyFromJson n (tyToJson l)
      let b ← fromJson n (toJson false b)
      let r ← tyFromJson n (tyToJson r)
      .ok (.mk l b r)) := by
  rw [layerFromJson]
  simp only [layerToJson]
  generalize toJson false b = js
  cases top <;>
  simp [popEntity, field, cat, List.lookup, kwargs, numD, asNum, asStr, asArr, ok_bind, Except.bind]

theorem compFromJson_diag (n : Nat) (top : Bool) (d c : Ty) (ls : List FLayer) :
    compFromJson (n + 1) (compToJson top (.diag d c ls)) = diagFromJson n (compToJson top (.diag d c ls)) := by
  rw [compFromJson]
  cases top <;> simp [compToJson, entity, field, cat, List.lookup, asStr, ok_bind, Except.bind]

theorem low_cap : "Cap".toLower = "cap" := by decide +kernel
theorem low_cup : "Cup".toLower = "cup" := by decide +kernel
theorem low_spider : "Spider".toLower = "spider" := by decide +kernel
theorem low_swap : "Swap".toLower = "swap" := by decide +kernel
theorem low_frame : "Frame".toLower = "frame" := by decide +kernel
theorem low_box : "Box".toLower = "box" := by decide +kernel
theorem low_word : "Word".toLower = "word" := by decide +kernel
theorem low_daggered : "Daggered".toLower = "daggered" := by decide +kernel
theorem low_daggeredFrame : "DaggeredFrame".toLower = "daggeredframe" := by decide +kernel

theorem compFromJson_base (n : Nat) (top : Bool) (b : Box) (h : Special (base b)) :
    compFromJson (n + 1) (compToJson top (.box (base b))) =
      (Box.classFromJson n b (b.toJson top)).map (fun b => .box (base b)) := by
  rw [compFromJson]
  cases b <;> first
    | (exfalso; simp [Special] at h; done)
    | (cases top <;> simp [compToJson, toJson, Box.toJson, entity, field, cat, List.lookup, asStr, ok_bind,
        Except.bind, Box.classFromJson, low_cap, low_cup, low_spider, low_swap])

theorem compFromJson_frame (n : Nat) (top : Bool) (nm : String) (d c : Ty) (cs : List Comp) (z : Int) :
    compFromJson (n + 1) (compToJson top (.box (frame nm d c cs z))) =
      (frameFromJson n (toJson top (frame nm d c cs z))).map .box := by
  rw [compFromJson]
  cases top <;> simp [compToJson, toJson, entity, field, cat, List.lookup, asStr, ok_bind, Except.bind, low_frame]

/-- A component of another class raises `KeyError`. -/
theorem compFromJson_other (n : Nat) (top : Bool) (b : FBox) (h : ¬ Special b) :
    compFromJson (n + 1) (compToJson top (.box b)) = .error .keyError := by
  rw [compFromJson]
  rcases b with b | _ | _
  · cases b <;> first
    | (exfalso; simp [Special] at h; done)
    | (cases top <;> simp [compToJson, toJson, Box.toJson, entity, field, cat, List.lookup, asStr, ok_bind,
        Except.bind, low_box, low_word, low_daggered])
  · exact absurd (by simp [Special]) h
  · cases top <;> simp [compToJson, toJson, entity, field, cat, List.lookup, asStr, ok_bind,
        Except.bind, low_daggeredFrame]

theorem frameFromJson_other (n : Nat) (top : Bool) (b x : FBox) (h : ¬ IsFrame b) :
    frameFromJson n (toJson top b) ≠ .ok x := by
  cases n with
  | zero => simp [frameFromJson]
  | succ n =>
    rw [frameFromJson]
    rcases b with b | _ | f
    · cases b <;> cases top <;>
        simp [toJson, Box.toJson, popEntity, field, cat, List.lookup, asStr, ok_bind, err_bind, Except.bind] <;>
        intro h <;> simp [Functor.bind_ok_iff] at h
    · exact absurd (by simp [IsFrame]) h
    · cases top <;>
        simp [toJson, popEntity, field, cat, List.lookup, asStr, ok_bind, err_bind, Except.bind]

theorem compsToJson_eq (cs : List Comp) : compsToJson cs = cs.map (compToJson false) := by
  induction cs with
  | nil => simp [compsToJson]
  | cons c cs ih => simp [compsToJson, ih]

theorem layersToJson_eq (ls : List FLayer) : layersToJson ls = ls.map (layerToJson false) := by
  induction ls with
  | nil => simp [layersToJson]
  | cons c cs ih => simp [layersToJson, ih]

/-! ### decoding what was encoded -/

mutual
theorem fromJson_ok (b : FBox) (hv : Valid b) (he : Enc b) :
    ∃ n0, ∀ n, n0 ≤ n → ∀ top, fromJson n (toJson top b) = .ok b ∧
      (IsFrame b → frameFromJson n (toJson top b) = .ok b) := by
  match b with
  | base b =>
    refine ⟨3, fun n hn top => ?_⟩
    obtain ⟨n, rfl⟩ := Nat.exists_eq_add_of_le' hn
    refine ⟨?_, fun h => absurd h (by simp [IsFrame])⟩
    rw [show n + 3 = (n + 2) + 1 from rfl, fromJson_base, Box.classFromJson_ok (by omega) top hv he]
    rfl
  | frame nm d c cs z =>
    obtain ⟨n1, h⟩ := compsFromJson_ok cs hv he
    have key : ∀ n, n1 + 3 ≤ n → ∀ top,
        frameFromJson n (toJson top (frame nm d c cs z)) = .ok (frame nm d c cs z) := by
      intro n hn top
      obtain ⟨n, rfl⟩ := Nat.exists_eq_add_of_le' hn
      rw [show n + (n1 + 3) = (n + n1 + 2) + 1 by omega, frameFromJson_eq, tyFromJson_ok (by omega),
        tyFromJson_ok (by omega)]
      simp only [ok_bind]
      rw [h _ (by omega)]
      rfl
    refine ⟨n1 + 4, fun n hn top => ⟨?_, fun _ => key n (by omega) top⟩⟩
    obtain ⟨n, rfl⟩ := Nat.exists_eq_add_of_le' hn
    rw [show n + (n1 + 4) = (n + n1 + 3) + 1 by omega, fromJson_frame, key _ (by omega)]
  | daggeredFrame f =>
    obtain ⟨n1, h⟩ := fromJson_ok f hv he.2
    refine ⟨n1 + 2, fun n hn top => ⟨?_, fun h => absurd h (by simp [IsFrame])⟩⟩
    obtain ⟨n, rfl⟩ := Nat.exists_eq_add_of_le' hn
    rw [show n + (n1 + 2) = (n + n1 + 1) + 1 by omega, fromJson_daggered, daggeredFrameFromJson_eq,
      (h _ (by omega) false).2 he.1]
    obtain ⟨hf, -⟩ := he
    cases f <;> first | rfl | exact absurd hf (by simp [IsFrame])
theorem layerFromJson_ok (l : FLayer) (hv : ValidL l) (he : EncL l) :
    ∃ n0, ∀ n, n0 ≤ n → ∀ top, layerFromJson n (layerToJson top l) = .ok l := by
  match l with
  | .mk l b r =>
    obtain ⟨n1, h⟩ := fromJson_ok b hv he
    refine ⟨n1 + 3, fun n hn top => ?_⟩
    obtain ⟨n, rfl⟩ := Nat.exists_eq_add_of_le' hn
    rw [show n + (n1 + 3) = (n + n1 + 2) + 1 by omega, layerFromJson_eq, tyFromJson_ok (by omega),
        tyFromJson_ok (by omega)]
    simp only [ok_bind]
    rw [(h _ (by omega) false).1]
    rfl
theorem compFromJson_ok (c : Comp) (hv : ValidC c) (he : EncC c) :
    ∃ n0, ∀ n, n0 ≤ n → ∀ top, compFromJson n (compToJson top c) = .ok c := by
  match c with
  | .box b =>
    obtain ⟨hs, he⟩ := he
    obtain ⟨n1, h⟩ := fromJson_ok b hv he
    refine ⟨n1 + 3, fun n hn top => ?_⟩
    obtain ⟨n, rfl⟩ := Nat.exists_eq_add_of_le' hn
    rw [show n + (n1 + 3) = (n + n1 + 2) + 1 by omega]
    cases b with
    | base b =>
      rw [compFromJson_base _ _ _ hs, Box.classFromJson_ok (by omega) top hv he]; rfl
    | frame nm d c cs z =>
      rw [compFromJson_frame, (h _ (by omega) top).2 trivial]; rfl
    | daggeredFrame f => exact absurd hs (by simp [Special])
  | .diag d c ls =>
    obtain ⟨n1, h⟩ := layersFromJson_ok ls hv he
    refine ⟨n1 + 4, fun n hn top => ?_⟩
    obtain ⟨n, rfl⟩ := Nat.exists_eq_add_of_le' hn
    rw [show n + (n1 + 4) = (n + n1 + 2) + 1 + 1 by omega, compFromJson_diag, diagFromJson_eq,
      tyFromJson_ok (by omega), tyFromJson_ok (by omega)]
    simp only [ok_bind]
    rw [h _ (by omega)]
    rfl
theorem compsFromJson_ok (cs : List Comp) (hv : ValidCs cs) (he : EncCs cs) :
    ∃ n0, ∀ n, n0 ≤ n → (compsToJson cs).mapM (compFromJson n) = .ok cs := by
  match cs with
  | [] => exact ⟨0, fun n _ => rfl⟩
  | c :: cs =>
    obtain ⟨n1, h1⟩ := compFromJson_ok c hv.1 he.1
    obtain ⟨n2, h2⟩ := compsFromJson_ok cs hv.2 he.2
    refine ⟨n1 + n2, fun n hn => ?_⟩
    rw [compsToJson, List.mapM_cons, h1 n (by omega), ok_bind, h2 n (by omega)]
    rfl
theorem layersFromJson_ok (ls : List FLayer) (hv : ValidLs ls) (he : EncLs ls) :
    ∃ n0, ∀ n, n0 ≤ n → (layersToJson ls).mapM (layerFromJson n) = .ok ls := by
  match ls with
  | [] => exact ⟨0, fun n _ => rfl⟩
  | c :: cs =>
    obtain ⟨n1, h1⟩ := layerFromJson_ok c hv.1 he.1
    obtain ⟨n2, h2⟩ := layersFromJson_ok cs hv.2 he.2
    refine ⟨n1 + n2, fun n hn => ?_⟩
    rw [layersToJson, List.mapM_cons, h1 n (by omega), ok_bind, h2 n (by omega)]
    rfl
end

/-! ### nothing else decodes -/

mutual
theorem fromJson_inv (b : FBox) (n : Nat) (top : Bool) (x : FBox) (h : fromJson n (toJson top b) = .ok x) :
    Enc b ∧ x = b := by
  match n with
  | 0 => simp [fromJson] at h
  | n + 1 =>
    match b with
    | base b =>
      rw [fromJson_base] at h
      cases hg : Box.classFromJson n b (b.toJson top) with
      | error e => rw [hg] at h; simp [Except.map] at h
      | ok y =>
        rw [hg] at h
        obtain ⟨h1, rfl⟩ := Box.classFromJson_inv hg
        simp [Except.map] at h
        exact ⟨h1, h.symm⟩
    | frame nm d c cs z =>
      rw [fromJson_frame] at h
      exact (frameFromJson_inv (frame nm d c cs z) n top x h).2
    | daggeredFrame f =>
      rw [fromJson_daggered] at h
      exact daggeredInv f n top x h
termination_by (n, 0, 0)
theorem daggeredInv (f : FBox) (n : Nat) (top : Bool) (x : FBox)
    (h : daggeredFrameFromJson n (toJson top (daggeredFrame f)) = .ok x) :
    Enc (daggeredFrame f) ∧ x = daggeredFrame f := by
  match n with
  | 0 => simp [daggeredFrameFromJson] at h
  | n + 1 =>
    rw [daggeredFrameFromJson_eq] at h
    cases hg : frameFromJson n (toJson false f) with
    | error e => rw [hg] at h; simp [Except.map] at h
    | ok y =>
      rw [hg] at h
      obtain ⟨h1, h2, rfl⟩ := frameFromJson_inv f n false y hg
      simp [Except.map] at h
      refine ⟨⟨h1, h2⟩, ?_⟩
      rw [← h]
      cases y <;> first | rfl | exact absurd h1 (by simp [IsFrame])
termination_by (n, 0, 0)
theorem frameFromJson_inv (b : FBox) (n : Nat) (top : Bool) (x : FBox) (h : frameFromJson n (toJson top b) = .ok x) :
    IsFrame b ∧ Enc b ∧ x = b := by
  match n with
  | 0 => simp [frameFromJson] at h
  | n + 1 =>
    match b with
    | base b => exact absurd h (frameFromJson_other _ top _ x (by simp [IsFrame]))
    | daggeredFrame b => exact absurd h (frameFromJson_other _ top _ x (by simp [IsFrame]))
    | frame nm d c cs z =>
      rw [frameFromJson_eq] at h
      simp only [Functor.bind_ok_iff] at h
      obtain ⟨d', h1, c', h2, cs', h3, h4⟩ := h
      obtain ⟨h5, rfl⟩ := compsFromJson_inv cs n cs' h3
      rw [tyFromJson_inv h1, tyFromJson_inv h2] at h4
      injection h4 with h4
      exact ⟨trivial, h5, h4.symm⟩
termination_by (n, 0, 0)
theorem layerFromJson_inv (l : FLayer) (n : Nat) (top : Bool) (x : FLayer)
    (h : layerFromJson n (layerToJson top l) = .ok x) : EncL l ∧ x = l := by
  match n with
  | 0 => simp [layerFromJson] at h
  | n + 1 =>
    match l with
    | .mk l b r =>
      rw [layerFromJson_eq] at h
      simp only [Functor.bind_ok_iff] at h
      obtain ⟨d', h1, b', h2, c', h3, h4⟩ := h
      obtain ⟨h5, rfl⟩ := fromJson_inv b n false b' h2
      rw [tyFromJson_inv h1, tyFromJson_inv h3] at h4
      injection h4 with h4
      exact ⟨h5, h4.symm⟩
termination_by (n, 0, 0)
theorem diagFromJson_inv (d c : Ty) (ls : List FLayer) (n : Nat) (top : Bool) (x : Comp)
    (h : diagFromJson n (compToJson top (.diag d c ls)) = .ok x) : EncLs ls ∧ x = .diag d c ls := by
  match n with
  | 0 => simp [diagFromJson] at h
  | n + 1 =>
    rw [diagFromJson_eq] at h
    simp only [Functor.bind_ok_iff] at h
    obtain ⟨d', h1, c', h2, cs', h3, h4⟩ := h
    obtain ⟨h5, rfl⟩ := layersFromJson_inv ls n cs' h3
    rw [tyFromJson_inv h1, tyFromJson_inv h2] at h4
    injection h4 with h4
    exact ⟨h5, h4.symm⟩
termination_by (n, 0, 0)
theorem compFromJson_inv (c : Comp) (n : Nat) (top : Bool) (x : Comp)
    (h : compFromJson n (compToJson top c) = .ok x) : EncC c ∧ x = c := by
  match n with
  | 0 => simp [compFromJson] at h
  | n + 1 =>
    match c with
    | .diag d c ls =>
      rw [compFromJson_diag] at h
      exact diagFromJson_inv d c ls n top x h
    | .box b =>
      by_cases hs : Special b
      · match b with
        | base b =>
          rw [compFromJson_base _ _ _ hs] at h
          cases hg : Box.classFromJson n b (b.toJson top) with
          | error e => rw [hg] at h; simp [Except.map] at h
          | ok y =>
            rw [hg] at h
            obtain ⟨h1, rfl⟩ := Box.classFromJson_inv hg
            simp [Except.map] at h
            exact ⟨⟨hs, h1⟩, h.symm⟩
        | frame nm d c cs z =>
          rw [compFromJson_frame] at h
          cases hg : frameFromJson n (toJson top (frame nm d c cs z)) with
          | error e => rw [hg] at h; simp [Except.map] at h
          | ok y =>
            rw [hg] at h
            obtain ⟨h0, h1, rfl⟩ := frameFromJson_inv _ n top y hg
            simp [Except.map] at h
            exact ⟨⟨hs, h1⟩, h.symm⟩
        | daggeredFrame f => exact absurd hs (by simp [Special])
      · rw [compFromJson_other _ _ _ hs] at h
        simp at h
termination_by (n, 0, 0)
theorem compsFromJson_inv (cs : List Comp) (n : Nat) (xs : List Comp)
    (h : (compsToJson cs).mapM (compFromJson n) = .ok xs) : EncCs cs ∧ xs = cs := by
  match cs with
  | [] =>
    rw [compsToJson, List.mapM_nil] at h
    cases h
    exact ⟨trivial, rfl⟩
  | c :: cs =>
    rw [compsToJson, List.mapM_cons] at h
    simp only [Functor.bind_ok_iff] at h
    obtain ⟨y, h1, ys, h2, h3⟩ := h
    obtain ⟨h4, rfl⟩ := compFromJson_inv c n false y h1
    obtain ⟨h5, rfl⟩ := compsFromJson_inv cs n ys h2
    cases h3
    exact ⟨⟨h4, h5⟩, rfl⟩
termination_by (n, 1, cs.length)
theorem layersFromJson_inv (cs : List FLayer) (n : Nat) (xs : List FLayer)
    (h : (layersToJson cs).mapM (layerFromJson n) = .ok xs) : EncLs cs ∧ xs = cs := by
  match cs with
  | [] =>
    rw [layersToJson, List.mapM_nil] at h
    cases h
    exact ⟨trivial, rfl⟩
  | c :: cs =>
    rw [layersToJson, List.mapM_cons] at h
    simp only [Functor.bind_ok_iff] at h
    obtain ⟨y, h1, ys, h2, h3⟩ := h
    obtain ⟨h4, rfl⟩ := layerFromJson_inv c n false y h1
    obtain ⟨h5, rfl⟩ := layersFromJson_inv cs n ys h2
    cases h3
    exact ⟨⟨h4, h5⟩, rfl⟩
termination_by (n, 1, cs.length)
end

/-! ### the properties -/

/-- Boxes built without daggers of non-self-dual boxes and without frames. -/
def Plain : FBox → Prop
  | base (.daggered _) => False
  | base b => b.Valid
  | _ => False

/-- **C21.** For every type, every box that is not daggered (plain box, word, cup, cap, swap, spider), every
layer holding such a box and every diagram of such layers, whatever its length: decoding the encoding gives
the same value back, at top level or nested, for every sufficiently large recursion limit. -/
theorem C21_json_round_trip :
    (∀ t : Ty, ∀ top, ∀ n ≥ 2, (RTy.fromJson n (RTy.toJson top (RTy.ofTy t)) = .ok (RTy.ofTy t)))
    ∧ (∀ b : FBox, Plain b → ∃ n0, ∀ n ≥ n0, ∀ top, fromJson n (toJson top b) = .ok b)
    ∧ (∀ l b r, Plain b → ∃ n0, ∀ n ≥ n0, ∀ top, layerFromJson n (layerToJson top (.mk l b r)) = .ok (.mk l b r))
    ∧ (∀ d c (ls : List FLayer), (∀ l b r, FLayer.mk l b r ∈ ls → Plain b) →
        ∃ n0, ∀ n ≥ n0, ∀ top, diagFromJson n (compToJson top (.diag d c ls)) = .ok (.diag d c ls)) := by
  have hpe : ∀ b, Plain b → Valid b ∧ Enc b := by
    intro b hb
    rcases b with b | _ | _
    · cases b <;> simp_all [Plain, Valid, Enc, Box.Enc]
    · exact hb.elim
    · exact hb.elim
  refine ⟨?_, ?_, ?_, ?_⟩
  · intro t top n hn
    obtain ⟨m, rfl⟩ := Nat.exists_eq_add_of_le' hn
    exact RTy.fromJson_ofTy m top t
  · intro b hb
    obtain ⟨n0, h⟩ := fromJson_ok b (hpe b hb).1 (hpe b hb).2
    exact ⟨n0, fun n hn top => (h n hn top).1⟩
  · intro l b r hb
    exact layerFromJson_ok (.mk l b r) (hpe b hb).1 (hpe b hb).2
  · intro d c ls hls
    have h1 : ValidLs ls ∧ EncLs ls := by
      induction ls with
      | nil => exact ⟨trivial, trivial⟩
      | cons x ls ih =>
        obtain ⟨l, b, r⟩ := x
        have hb := hpe b (hls l b r (by simp))
        have := ih (fun l b r hm => hls l b r (List.mem_cons_of_mem _ hm))
        exact ⟨⟨hb.1, this.1⟩, ⟨hb.2, this.2⟩⟩
    obtain ⟨n1, h⟩ := layersFromJson_ok ls h1.1 h1.2
    refine ⟨n1 + 3, fun n hn top => ?_⟩
    obtain ⟨n, rfl⟩ := Nat.exists_eq_add_of_le' hn
    rw [show n + (n1 + 3) = (n + n1 + 2) + 1 by omega, diagFromJson_eq,
      tyFromJson_ok (by omega), tyFromJson_ok (by omega)]
    simp only [ok_bind]
    rw [h _ (by omega)]
    rfl

/-- Non-vacuity of C21: a diagram with a word and a cup. -/
example : ∀ l b r, FLayer.mk l b r ∈ [FLayer.mk [] (base (.word "w" [⟨"n", 0⟩, ⟨"n", 1⟩] 0)) [],
    FLayer.mk [] (base (.cup ⟨"n", 0⟩ ⟨"n", 1⟩ false)) []] → Plain b := by
  intro l b r h
  simp at h
  rcases h with ⟨_, rfl, _⟩ | ⟨_, rfl, _⟩
  · simp [Plain, Box.Valid]
  · simp [Plain, Box.Valid]; decide

/-- **C22 (what holds).** For every constructible box - daggered boxes, frames nested to any depth, daggered
frames - and every diagram: the round trip returns the same value exactly when the value is `Enc` (daggers only
of plain boxes, frame components only diagrams, cups, caps, swaps, spiders and frames); otherwise decoding
raises at every recursion limit. Decoding never silently returns a different value. -/
theorem C22_json_frames_partial :
    (∀ b : FBox, Valid b → ∀ top, ((∃ n0, ∀ n ≥ n0, fromJson n (toJson top b) = .ok b) ↔ Enc b))
    ∧ (∀ b : FBox, ¬ Enc b → ∀ n top, ∃ e, fromJson n (toJson top b) = .error e)
    ∧ (∀ b x : FBox, ∀ n top, fromJson n (toJson top b) = .ok x → x = b)
    ∧ (∀ d c ls, ValidLs ls → ∀ top,
        ((∃ n0, ∀ n ≥ n0, compFromJson n (compToJson top (.diag d c ls)) = .ok (.diag d c ls)) ↔ EncLs ls))
    ∧ (∀ d c ls x n top, diagFromJson n (compToJson top (.diag d c ls)) = .ok x → x = .diag d c ls) := by
  refine ⟨?_, ?_, ?_, ?_, ?_⟩
  · intro b hv top
    constructor
    · rintro ⟨n0, h⟩
      exact (fromJson_inv b n0 top b (h n0 (Nat.le_refl _))).1
    · intro he
      obtain ⟨n0, h⟩ := fromJson_ok b hv he
      exact ⟨n0, fun n hn => (h n hn top).1⟩
  · intro b he n top
    cases h : fromJson n (toJson top b) with
    | error e => exact ⟨e, rfl⟩
    | ok x => exact absurd (fromJson_inv b n top x h).1 he
  · intro b x n top h
    exact (fromJson_inv b n top x h).2
  · intro d c ls hv top
    constructor
    · rintro ⟨n0, h⟩
      exact (compFromJson_inv _ n0 top _ (h n0 (Nat.le_refl _))).1
    · intro he
      obtain ⟨n0, h⟩ := compFromJson_ok (.diag d c ls) hv he
      exact ⟨n0, fun n hn => h n hn top⟩
  · intro d c ls x n top h
    exact (diagFromJson_inv d c ls n top x h).2

/-- A frame around a diagram that itself holds a frame, and its dagger: `Enc` and `Valid`. -/
example : let f := frame "f" [] [⟨"s", 0⟩] [.diag [] [] [.mk [] (daggeredFrame (frame "g" [] []
      [.box (base (.swap ⟨"n", 0⟩ ⟨"s", 0⟩))] 0)) []]] 2
    Enc (daggeredFrame f) ∧ Valid (daggeredFrame f) := by
  simp [Enc, EncCs, EncC, EncLs, EncL, IsFrame, Special, Valid, ValidCs, ValidC, ValidLs, ValidL, Box.Enc, Box.Valid]

/-- **C22, refuted part.** `Daggered(Word('w', n))` and a frame holding a word directly encode, but decoding
raises `KeyError` whatever the recursion limit (above 2). -/
theorem C22_json_round_trip_refuted (n : Nat) :
    fromJson (n + 3) (toJson true (base (.daggered (.word "w" [⟨"n", 0⟩] 0)))) = .error .keyError
    ∧ fromJson (n + 4) (toJson true twoHoles) = .error .keyError := by
  constructor
  · rw [fromJson_base, Box.classFromJson, Box.daggeredFromJson_eq]
    simp [Box.genFromJson, Box.toJson, popEntity, field, cat, List.lookup, ok_bind, err_bind, Except.bind,
      Except.map]
  · rw [twoHoles, fromJson_frame, frameFromJson_eq, tyFromJson_ok (by omega), tyFromJson_ok (by omega)]
    simp only [ok_bind, compsToJson, List.mapM_cons]
    rw [compFromJson_other _ _ _ (by simp [Special])]
    rfl

end FBox
end Lambeq
