import Verif.Grammar.JsonCategory

/-!
# Decoding by a category (C115)
-/

namespace Lambeq
open Json
set_option linter.unusedSimpArgs false
set_option linter.unusedVariables false

/-- C115: what a category has encoded it decodes: every type, every box that is not daggered, and the layers and diagrams of them, alone or as a
part of something else. -/
theorem C115_round_trip :
    (∀ t : Ty, ∀ top, ∀ n ≥ 2, categoryFromJson n (RTy.toJson top (RTy.ofTy t)) = .ok (.ty (RTy.ofTy t))) ∧
    (∀ b : FBox, FBox.Plain b → ∃ n0, ∀ n ≥ n0, ∀ top, categoryFromJson n (FBox.toJson top b) = .ok (.box b)) ∧
    (∀ l b r, FBox.Plain b → ∃ n0, ∀ n ≥ n0, ∀ top,
      categoryFromJson n (FBox.layerToJson top (.mk l b r)) = .ok (.layer (.mk l b r))) ∧
    (∀ d c (ls : List FLayer), (∀ l b r, FLayer.mk l b r ∈ ls → FBox.Plain b) →
      ∃ n0, ∀ n ≥ n0, ∀ top, categoryFromJson n (FBox.compToJson top (.diag d c ls)) = .ok (.diagram (.diag d c ls))) := by
  obtain ⟨h1, h2, h3, h4⟩ := FBox.C21_json_round_trip
  refine ⟨?_, ?_, ?_, ?_⟩
  · intro t top n hn
    have he : entity (RTy.toJson top (RTy.ofTy t)) = .ok "Ty" := by
      generalize RTy.ofTy t = r
      obtain ⟨a, b, c⟩ := r
      cases top <;> simp [RTy.toJson, entity, field, List.lookup, asStr, Except.bind]
    rw [categoryFromJson, he]
    simp [h1 t top n hn, Except.map]
  · intro b hb
    obtain ⟨n0, h⟩ := h2 b hb
    refine ⟨n0, fun n hn top => ?_⟩
    have he : ∃ e, entity (FBox.toJson top b) = .ok e ∧ e ≠ "Ty" ∧ e ≠ "Layer" ∧ e ≠ "Diagram" := by
      rcases b with b | _ | _
      · cases b <;> cases top <;>
          simp [FBox.toJson, Box.toJson, entity, field, List.lookup, asStr, Except.bind, cat]
      · exact hb.elim
      · exact hb.elim
    obtain ⟨e, he, e1, e2, e3⟩ := he
    rw [categoryFromJson, he]
    simp [e1, e2, e3, h n hn top, Except.map]
  · intro l b r hb
    obtain ⟨n0, h⟩ := h3 l b r hb
    refine ⟨n0, fun n hn top => ?_⟩
    have he : entity (FBox.layerToJson top (.mk l b r)) = .ok "Layer" := by
      cases top <;> simp [FBox.layerToJson, entity, field, List.lookup, asStr, Except.bind]
    rw [categoryFromJson, he]
    simp [h n hn top, Except.map]
  · intro d c ls hb
    obtain ⟨n0, h⟩ := h4 d c ls hb
    refine ⟨n0, fun n hn top => ?_⟩
    have he : entity (FBox.compToJson top (.diag d c ls)) = .ok "Diagram" := by
      cases top <;> simp [FBox.compToJson, entity, field, List.lookup, asStr, Except.bind]
    rw [categoryFromJson, he]
    simp [h n hn top, Except.map]

theorem dict_lookup_none {β : Type} (d : List (String × β)) (k : String) : d.lookup k = none ↔ ∀ kv ∈ d, kv.1 ≠ k := by
  induction d with
  | nil => simp
  | cons p d ih =>
    obtain ⟨a, b⟩ := p
    simp only [List.lookup, List.forall_mem_cons]
    by_cases h : k = a
    · subst h; simp
    · have h2 : a ≠ k := fun x => h x.symm
      simp [beq_eq_false_iff_ne.2 h, ih, h2]

theorem dict_lookup_without (d : PyDict) (k x : String) : (d.without x).lookup k = if k = x then none else d.lookup k := by
  induction d with
  | nil => simp [PyDict.without]
  | cons p d ih =>
    obtain ⟨a, b⟩ := p
    simp only [PyDict.without] at ih
    by_cases h : a = x
    · subst h
      simp only [PyDict.without, bne_self_eq_false, Bool.false_eq_true, not_false_eq_true, List.filter_cons_of_neg, ih]
      by_cases hk : k = a
      · simp [hk]
      · simp [hk, List.lookup, beq_eq_false_iff_ne.2 hk]
    · simp only [PyDict.without, bne_iff_ne, ne_eq, h, not_false_eq_true, List.filter_cons_of_pos, List.lookup, ih]
      by_cases hk : k = a
      · subst hk; simp [h]
      · simp [beq_eq_false_iff_ne.2 hk]

theorem dict_lookup_made (d : PyDict) (k x : String) :
    (d.map (fun kv => if kv.1 = x then (x, Held.made) else kv)).lookup k = if k = x then (d.lookup k).map (fun _ => .made) else d.lookup k := by
  induction d with
  | nil => simp
  | cons p d ih =>
    obtain ⟨a, b⟩ := p
    simp only [List.map_cons]
    by_cases h : a = x
    · subst h
      simp only [if_true, List.lookup, ih]
      by_cases hk : k = a
      · simp [hk]
      · simp [hk, beq_eq_false_iff_ne.2 hk]
    · simp only [h, if_false, List.lookup, ih]
      by_cases hk : k = a
      · subst hk; simp [h]
      · simp [beq_eq_false_iff_ne.2 hk]

theorem replace_kept (n : Nat) (e : String) (ks : List String) (d : PyDict) (k : String) (h : k ∉ ks) :
    (replaceFields n e ks d).lookup k = d.lookup k := by
  induction ks generalizing d with
  | nil => rfl
  | cons x ks ih =>
    simp only [List.mem_cons, not_or] at h
    rw [replaceFields]
    split
    · split
      · rw [ih _ h.2, dict_lookup_made, if_neg h.1]
      · rfl
    · rfl

theorem replace_none (n : Nat) (e : String) (ks : List String) (d : PyDict) (k : String) (h : d.lookup k = none) :
    (replaceFields n e ks d).lookup k = none := by
  induction ks generalizing d with
  | nil => exact h
  | cons x ks ih =>
    rw [replaceFields]
    split
    · split
      · refine ih _ ?_
        rw [dict_lookup_made, h]
        simp
      · exact h
    · exact h

theorem left_entity (n : Nat) (e : String) (d : PyDict) : (leftBehind n e d).lookup "entity" = none := by
  rw [leftBehind]
  split
  · refine replace_none _ _ _ _ _ ?_
    rw [dict_lookup_without]
    simp
  · next h =>
    rw [dict_lookup_without]
    simp only [Option.not_isSome_iff_eq_none] at h
    simp [h]

/-- C115: a dictionary can be decoded once only. Whatever the first attempt gives, a value or an exception, and at whatever depth of the stack, the
next raises `KeyError`. -/
theorem C115_once (n m : Nat) (d : PyDict) (h : ∀ j, d.lookup "entity" = some (.json j) → ∃ s, j = .str s) :
    (categoryDecode m (categoryDecode n d).2).1 = .error .keyError := by
  cases hl : d.lookup "entity" with
  | none => simp [categoryDecode, hl]
  | some v =>
    cases v with
    | made => simp [categoryDecode, hl]
    | json j =>
      obtain ⟨s, rfl⟩ := h j hl
      by_cases hs : s ∈ ["Cap", "Cup", "Daggered", "Spider", "Swap", "Word", "Frame", "DaggeredFrame", "Ty", "Box", "Layer", "Diagram"]
      · have h1 : (categoryDecode n d).2 = leftBehind (if s = "Frame" then n - 2 else n - 1) s d := by
          simp only [categoryDecode, hl, if_pos hs]
        rw [h1, categoryDecode, left_entity]
      · simp only [categoryDecode, hl, if_neg hs]

/-- Concrete dictionaries. -/
def sampleDict : PyDict := PyDict.ofFields [("entity", .str "Cup"), ("is_reversed", .bool false), ("left", tyToJson [⟨"n", 0⟩]),
  ("right", tyToJson [⟨"n", 1⟩]), ("category", .str "grammar")]

/-- Non-vacuity of C115_once, with a first attempt that succeeds. -/
example : (∀ j, sampleDict.lookup "entity" = some (.json j) → ∃ s, j = .str s) ∧
    (match (categoryDecode 5 sampleDict).1 with | .ok (.box (.base b)) => b == .cup ⟨"n", 0⟩ ⟨"n", 1⟩ false | _ => false) = true ∧
    (categoryDecode 5 sampleDict).2.map Prod.fst = ["is_reversed", "left", "right"] := by
  refine ⟨?_, by decide +kernel, by decide +kernel⟩
  intro j hj
  exact ⟨"Cup", by simpa [sampleDict, PyDict.ofFields, List.lookup] using hj.symm⟩

/-- C115, refuted: to decode a dictionary leaves it as it was, so that it can be decoded again. -/
theorem C115_refuted_again : ∃ d : PyDict, (categoryDecode 5 d).1.isOk = true ∧
    (match (categoryDecode 5 (categoryDecode 5 d).2).1 with | .error .keyError => true | _ => false) = true :=
  ⟨sampleDict, by decide +kernel, by decide +kernel⟩

theorem toFields_ofFields (fs : List (String × Json)) : PyDict.toFields (PyDict.ofFields fs) = some fs := by
  induction fs with
  | nil => rfl
  | cons p fs ih =>
    obtain ⟨k, j⟩ := p
    simp only [PyDict.ofFields, List.map_cons, PyDict.toFields] at ih ⊢
    rw [ih]
    rfl

theorem lookup_ofFields (fs : List (String × Json)) (k : String) : (PyDict.ofFields fs).lookup k = (fs.lookup k).map .json := by
  induction fs with
  | nil => rfl
  | cons p fs ih =>
    obtain ⟨a, j⟩ := p
    simp only [PyDict.ofFields, List.map_cons, List.lookup] at ih ⊢
    split
    · rfl
    · exact ih

/-- C115: the first attempt on a dictionary gives what the same JSON text gives: text can be decoded any number of times. -/
theorem C115_text (n : Nat) (fs : List (String × Json)) : (categoryDecode n (PyDict.ofFields fs)).1 = categoryFromJson n (.obj fs) ∨
    (∃ e, fs.lookup "entity" = some (.str e) ∧
      e ∉ ["Cap", "Cup", "Daggered", "Spider", "Swap", "Word", "Frame", "DaggeredFrame", "Ty", "Box", "Layer", "Diagram"] ∧
      (categoryDecode n (PyDict.ofFields fs)).1 = .error .keyError ∧
      (categoryFromJson n (.obj fs) = .error .keyError ∨ n = 0)) := by
  rw [categoryDecode, lookup_ofFields]
  cases hl : fs.lookup "entity" with
  | none => exact .inl (by simp [categoryFromJson, entity, field, hl, Except.bind])
  | some j =>
    cases j with
    | str e =>
      simp only [Option.map_some]
      by_cases hs : e ∈ ["Cap", "Cup", "Daggered", "Spider", "Swap", "Word", "Frame", "DaggeredFrame", "Ty", "Box", "Layer", "Diagram"]
      · left
        rw [if_pos hs, toFields_ofFields]
      · refine .inr ⟨e, rfl, hs, by rw [if_neg hs], ?_⟩
        simp only [List.mem_cons, List.not_mem_nil, or_false, not_or] at hs
        obtain ⟨h1, h2, h3, h4, h5, h6, h7, h8, h9, h10, h11, h12⟩ := hs
        cases n with
        | zero => exact .inr rfl
        | succ n =>
          left
          have he : entity (.obj fs) = .ok e := by simp [entity, field, hl, Except.bind, asStr]
          rw [categoryFromJson, he]
          simp [h9, h11, h12, FBox.fromJson, he, h1, h2, h3, h4, h5, h6, h7, h8, h10, ok_bind, Except.map]
    | _ => exact .inl (by simp [categoryFromJson, entity, field, hl, Except.bind, asStr])

/-- C115: what is left of a decoded dictionary: the category and the entity are gone, and what the class does not decode is as before. -/
theorem C115_left (n : Nat) (d : PyDict) (e : String) (he : d.lookup "entity" = some (.json (.str e))) (k : String)
    (h : e ∈ ["Cap", "Cup", "Daggered", "Spider", "Swap", "Word", "Frame", "DaggeredFrame", "Ty", "Box", "Layer", "Diagram"])
    (hk : k ∉ ["left", "right", "type", "dom", "cod", "objects", "layers", "box", "components"]) :
    (categoryDecode n d).2.lookup k = if k = "category" ∨ k = "entity" then none else d.lookup k := by
  have h1 : (categoryDecode n d).2 = leftBehind (if e = "Frame" then n - 2 else n - 1) e d := by
    simp only [categoryDecode, he, if_pos h]
  have h2 : k ∉ decodedFields e := by
    intro hm
    apply hk
    rw [decodedFields] at hm
    repeat' split at hm
    all_goals (simp only [List.mem_cons, List.not_mem_nil, or_false] at hm ⊢ <;> tauto)
  rw [h1, leftBehind, he]
  simp only [Option.isSome_some, if_true]
  rw [replace_kept _ _ _ _ _ h2, dict_lookup_without, dict_lookup_without]
  by_cases h3 : k = "entity"
  · simp [h3]
  · by_cases h4 : k = "category"
    · simp [h3, h4]
    · simp [h3, h4]

theorem bind_is_ok {α β : Type} {x : Except PyErr α} {f : α → Except PyErr β} {y : β} (h : (x >>= f) = .ok y) : ∃ a, x = .ok a ∧ f a = .ok y := by
  cases x with
  | error e => cases h
  | ok a => exact ⟨a, rfl, h⟩

theorem map_is_ok {α β : Type} {x : Except PyErr α} {f : α → β} {y : β} (h : x.map f = .ok y) : ∃ a, x = .ok a := by
  cases x with
  | error e => cases h
  | ok a => exact ⟨a, rfl⟩

theorem lookup_popped (fs : List (String × Json)) (k : String) (h1 : k ≠ "category") (h2 : k ≠ "entity") :
    (fs.filter (fun kv => kv.1 != "category" && kv.1 != "entity")).lookup k = fs.lookup k := by
  induction fs with
  | nil => rfl
  | cons p fs ih =>
    obtain ⟨a, j⟩ := p
    by_cases h : (fun kv : String × Json => kv.1 != "category" && kv.1 != "entity") (a, j) = true
    · rw [List.filter_cons, if_pos h, List.lookup, List.lookup, ih]
    · rw [List.filter_cons, if_neg h, ih, List.lookup]
      have : k ≠ a := by
        rintro rfl
        exact h (by simp [h1, h2])
      rw [beq_eq_false_iff_ne.2 this]

theorem popEntity_is_ok {fs fs' : List (String × Json)} (h : popEntity (.obj fs) = .ok fs') (k : String) (h1 : k ≠ "category")
    (h2 : k ≠ "entity") : fs'.lookup k = fs.lookup k := by
  rw [popEntity] at h
  split at h
  · cases h
  · injection h with h
    rw [← h, lookup_popped fs k h1 h2]

theorem field_is_ok {α : Type} {fs : List (String × Json)} {k : String} {f : Json → Except PyErr α} {y : α} (h : (field fs k).bind f = .ok y) :
    ∃ j, fs.lookup k = some j ∧ f j = .ok y := by
  rw [field] at h
  split at h
  · next v hv => exact ⟨v, hv, h⟩
  · cases h

theorem ty_is_ok {n : Nat} {j : Json} {t : Ty} (h : tyFromJson n j = .ok t) : (RTy.fromJson n j).isOk = true := by
  obtain ⟨a, h⟩ := map_is_ok h
  rw [h]; rfl

theorem ty_field {fs fs' : List (String × Json)} {k : String} {n : Nat} {t : Ty} (hp : popEntity (.obj fs) = .ok fs')
    (h : (field fs' k).bind (tyFromJson n) = .ok t) (h1 : k ≠ "category") (h2 : k ≠ "entity") :
    ∃ j, fs.lookup k = some j ∧ (RTy.fromJson n j).isOk = true := by
  obtain ⟨j, hj, h⟩ := field_is_ok h
  exact ⟨j, by rw [← popEntity_is_ok hp k h1 h2, hj], ty_is_ok h⟩

theorem arr_field {α : Type} {fs fs' : List (String × Json)} {k : String} {f : Json → Except PyErr α} {l : List Json} {ys : List α}
    (hp : popEntity (.obj fs) = .ok fs') (h : (field fs' k).bind asArr = .ok l) (h' : l.mapM f = .ok ys)
    (h1 : k ≠ "category") (h2 : k ≠ "entity") :
    ∃ j, fs.lookup k = some j ∧ ((asArr j).bind (fun l => l.mapM f)).isOk = true := by
  obtain ⟨j, hj, h⟩ := field_is_ok h
  refine ⟨j, by rw [← popEntity_is_ok hp k h1 h2, hj], ?_⟩
  rw [h]
  show (l.mapM f).isOk = true
  rw [h']; rfl

/-- A decoder that succeeds has decoded the fields of its class. -/
theorem fields_decode (n : Nat) (e : String) (fs : List (String × Json)) (x : Entity) (he : fs.lookup "entity" = some (.str e))
    (h : categoryFromJson n (.obj fs) = .ok x) (k : String) (hk : k ∈ decodedFields e) :
    ∃ j, fs.lookup k = some j ∧ fieldDecodes (if e = "Frame" then n - 2 else n - 1) e k j = true := by
  have hent : entity (.obj fs) = .ok e := by simp [entity, field, he, Except.bind, asStr]
  rw [categoryFromJson, hent] at h
  simp only at h
  split at h
  · next h1 =>
    subst h1
    obtain ⟨t, h⟩ := map_is_ok h
    cases n with
    | zero => simp [RTy.fromJson] at h
    | succ n =>
      rw [RTy.fromJson] at h
      obtain ⟨fs', hp, h⟩ := bind_is_ok h
      obtain ⟨l, hl, h⟩ := bind_is_ok h
      obtain ⟨os, ho, h⟩ := bind_is_ok h
      simp only [decodedFields, if_true, List.mem_cons, List.not_mem_nil, or_false] at hk
      subst hk
      simpa [fieldDecodes] using arr_field hp hl ho (by decide) (by decide)
  · split at h
    · next h1 =>
      subst h1
      obtain ⟨t, h⟩ := map_is_ok h
      cases n with
      | zero => simp [FBox.layerFromJson] at h
      | succ n =>
        rw [FBox.layerFromJson] at h
        obtain ⟨fs', hp, h⟩ := bind_is_ok h
        obtain ⟨l, hl, h⟩ := bind_is_ok h
        obtain ⟨b, hb, h⟩ := bind_is_ok h
        obtain ⟨r, hr, h⟩ := bind_is_ok h
        have hk' : k = "left" ∨ k = "box" ∨ k = "right" := by simpa [decodedFields] using hk
        rcases hk' with rfl | rfl | rfl
        · simpa [fieldDecodes] using ty_field hp hl (by decide) (by decide)
        · obtain ⟨j, hj, hb⟩ := field_is_ok hb
          refine ⟨j, by rw [← popEntity_is_ok hp "box" (by decide) (by decide), hj], ?_⟩
          have : (FBox.fromJson n j).isOk = true := by rw [hb]; rfl
          simpa [fieldDecodes] using this
        · simpa [fieldDecodes] using ty_field hp hr (by decide) (by decide)
    · split at h
      · next h1 =>
        subst h1
        obtain ⟨t, h⟩ := map_is_ok h
        cases n with
        | zero => simp [FBox.diagFromJson] at h
        | succ n =>
          rw [FBox.diagFromJson] at h
          obtain ⟨fs', hp, h⟩ := bind_is_ok h
          obtain ⟨l, hl, h⟩ := bind_is_ok h
          obtain ⟨b, hb, h⟩ := bind_is_ok h
          obtain ⟨r, hr, h⟩ := bind_is_ok h
          obtain ⟨os, ho, h⟩ := bind_is_ok h
          have hk' : k = "dom" ∨ k = "cod" ∨ k = "layers" := by simpa [decodedFields] using hk
          rcases hk' with rfl | rfl | rfl
          · simpa [fieldDecodes] using ty_field hp hl (by decide) (by decide)
          · simpa [fieldDecodes] using ty_field hp hb (by decide) (by decide)
          · simpa [fieldDecodes] using arr_field hp hr ho (by decide) (by decide)
      · next hn1 hn2 hn3 =>
        obtain ⟨t, h⟩ := map_is_ok h
        cases n with
        | zero => simp [FBox.fromJson] at h
        | succ n =>
          rw [FBox.fromJson] at h
          obtain ⟨e', he', h⟩ := bind_is_ok h
          rw [hent] at he'
          injection he' with he'
          subst he'
          split at h
          · next h1 =>
            subst h1
            obtain ⟨t, h⟩ := map_is_ok h
            rw [Box.capFromJson] at h
            obtain ⟨fs', hp, h⟩ := bind_is_ok h
            obtain ⟨l, hl, h⟩ := bind_is_ok h
            obtain ⟨r, hr, h⟩ := bind_is_ok h
            have hk' : k = "left" ∨ k = "right" := by simpa [decodedFields] using hk
            rcases hk' with rfl | rfl
            · simpa [fieldDecodes] using ty_field hp hl (by decide) (by decide)
            · simpa [fieldDecodes] using ty_field hp hr (by decide) (by decide)
          split at h
          · next h1 =>
            subst h1
            obtain ⟨t, h⟩ := map_is_ok h
            rw [Box.cupFromJson] at h
            obtain ⟨fs', hp, h⟩ := bind_is_ok h
            obtain ⟨l, hl, h⟩ := bind_is_ok h
            obtain ⟨r, hr, h⟩ := bind_is_ok h
            have hk' : k = "left" ∨ k = "right" := by simpa [decodedFields] using hk
            rcases hk' with rfl | rfl
            · simpa [fieldDecodes] using ty_field hp hl (by decide) (by decide)
            · simpa [fieldDecodes] using ty_field hp hr (by decide) (by decide)
          split at h
          · next h1 => subst h1; simp [decodedFields] at hk
          split at h
          · next h1 =>
            subst h1
            obtain ⟨t, h⟩ := map_is_ok h
            rw [Box.spiderFromJson] at h
            obtain ⟨fs', hp, h⟩ := bind_is_ok h
            obtain ⟨l, hl, h⟩ := bind_is_ok h
            have hk' : k = "type" := by simpa [decodedFields] using hk
            subst hk'
            simpa [fieldDecodes] using ty_field hp hl (by decide) (by decide)
          split at h
          · next h1 =>
            subst h1
            obtain ⟨t, h⟩ := map_is_ok h
            rw [Box.swapFromJson] at h
            obtain ⟨fs', hp, h⟩ := bind_is_ok h
            obtain ⟨l, hl, h⟩ := bind_is_ok h
            obtain ⟨r, hr, h⟩ := bind_is_ok h
            have hk' : k = "left" ∨ k = "right" := by simpa [decodedFields] using hk
            rcases hk' with rfl | rfl
            · simpa [fieldDecodes] using ty_field hp hl (by decide) (by decide)
            · simpa [fieldDecodes] using ty_field hp hr (by decide) (by decide)
          split at h
          · next h1 =>
            subst h1
            obtain ⟨t, h⟩ := map_is_ok h
            rw [Box.wordFromJson] at h
            obtain ⟨fs', hp, h⟩ := bind_is_ok h
            obtain ⟨l, hl, h⟩ := bind_is_ok h
            have hk' : k = "cod" := by simpa [decodedFields] using hk
            subst hk'
            simpa [fieldDecodes] using ty_field hp hl (by decide) (by decide)
          split at h
          · next h1 =>
            subst h1
            cases n with
            | zero => simp [FBox.frameFromJson] at h
            | succ n =>
              rw [FBox.frameFromJson] at h
              obtain ⟨fs', hp, h⟩ := bind_is_ok h
              obtain ⟨l, hl, h⟩ := bind_is_ok h
              obtain ⟨b, hb, h⟩ := bind_is_ok h
              obtain ⟨r, hr, h⟩ := bind_is_ok h
              obtain ⟨os, ho, h⟩ := bind_is_ok h
              have hk' : k = "dom" ∨ k = "cod" ∨ k = "components" := by simpa [decodedFields] using hk
              rcases hk' with rfl | rfl | rfl
              · simpa [fieldDecodes] using ty_field hp hl (by decide) (by decide)
              · simpa [fieldDecodes] using ty_field hp hb (by decide) (by decide)
              · simpa [fieldDecodes] using arr_field hp hr ho (by decide) (by decide)
          split at h
          · next h1 => subst h1; simp [decodedFields] at hk
          split at h
          · next h1 =>
            subst h1
            obtain ⟨t, h⟩ := map_is_ok h
            rw [Box.genFromJson] at h
            obtain ⟨fs', hp, h⟩ := bind_is_ok h
            obtain ⟨l, hl, h⟩ := bind_is_ok h
            obtain ⟨r, hr, h⟩ := bind_is_ok h
            have hk' : k = "dom" ∨ k = "cod" := by simpa [decodedFields] using hk
            rcases hk' with rfl | rfl
            · simpa [fieldDecodes] using ty_field hp hl (by decide) (by decide)
            · simpa [fieldDecodes] using ty_field hp hr (by decide) (by decide)
          · cases h

theorem replace_all (n : Nat) (e : String) (ks : List String) (hn : ks.Nodup) (d : PyDict)
    (h : ∀ k ∈ ks, ∃ j, d.lookup k = some (.json j) ∧ fieldDecodes n e k j = true) (k : String) (hk : k ∈ ks) :
    (replaceFields n e ks d).lookup k = some .made := by
  induction ks generalizing d with
  | nil => cases hk
  | cons x ks ih =>
    obtain ⟨j, hj, hd⟩ := h x (by simp)
    rw [List.nodup_cons] at hn
    rw [replaceFields, hj]
    simp only [hd, if_true]
    by_cases hx : k = x
    · subst hx
      rw [replace_kept _ _ _ _ _ hn.1, dict_lookup_made, if_pos rfl, hj]
      rfl
    · refine ih hn.2 _ (fun k' hk' => ?_) (by simpa [hx] using hk)
      obtain ⟨j', h1, h2⟩ := h k' (List.mem_cons_of_mem _ hk')
      refine ⟨j', ?_, h2⟩
      rw [dict_lookup_made, if_neg (fun (hh : k' = x) => hn.1 (hh ▸ hk')), h1]

/-- C115: after a successful attempt the dictionary holds objects in the place of the fields that the class decodes, so that it is no JSON any
more. -/
theorem C115_objects (n : Nat) (fs : List (String × Json)) (e : String) (x : Entity) (he : fs.lookup "entity" = some (.str e))
    (h : (categoryDecode n (PyDict.ofFields fs)).1 = .ok x) (k : String) (hk : k ∈ decodedFields e) :
    (categoryDecode n (PyDict.ofFields fs)).2.lookup k = some .made := by
  by_cases hm : e ∈ ["Cap", "Cup", "Daggered", "Spider", "Swap", "Word", "Frame", "DaggeredFrame", "Ty", "Box", "Layer", "Diagram"]
  · have hl : (PyDict.ofFields fs).lookup "entity" = some (.json (.str e)) := by rw [lookup_ofFields, he]; rfl
    have h1 : categoryDecode n (PyDict.ofFields fs) =
        (categoryFromJson n (.obj fs), leftBehind (if e = "Frame" then n - 2 else n - 1) e (PyDict.ofFields fs)) := by
      simp only [categoryDecode, hl, if_pos hm, toFields_ofFields]
    rw [h1] at h ⊢
    simp only at h ⊢
    rw [leftBehind, hl]
    simp only [Option.isSome_some, if_true]
    refine replace_all _ _ _ ?_ _ ?_ k hk
    · rw [decodedFields]
      repeat' split
      all_goals decide
    · intro k' hk'
      obtain ⟨j, h2, h3⟩ := fields_decode n e fs x he h k' hk'
      refine ⟨j, ?_, h3⟩
      have h4 : k' ≠ "category" ∧ k' ≠ "entity" := by
        rw [decodedFields] at hk'
        repeat' split at hk'
        all_goals (simp only [List.mem_cons, List.not_mem_nil, or_false] at hk')
        all_goals (constructor <;> (rintro rfl; revert hk'; decide))
      rw [dict_lookup_without, if_neg h4.2, dict_lookup_without, if_neg h4.1, lookup_ofFields, h2]
      rfl
  · exfalso
    rw [categoryDecode, lookup_ofFields, he] at h
    simp only [Option.map_some, if_neg hm] at h
    cases h

/-- Non-vacuity of C115_objects and C115_left. -/
example : (match (categoryDecode 5 sampleDict).2.lookup "left" with | some .made => true | _ => false) = true ∧
    (match (categoryDecode 5 sampleDict).2.lookup "is_reversed" with | some (.json (.bool false)) => true | _ => false) = true ∧
    decodedFields "Cup" = ["left", "right"] := by
  decide +kernel

end Lambeq
