import Verif.Ccg.BankTheorems

/-!
# Diagrams of a section of CCGBank (C94)

Models `CCGBankParser.section2diagrams` and `section2diagrams_gen` (`lambeq/text2diagram/ccgbank_parser.py` 224-264, 266-324). `CCGTree.to_diagram` is a
parameter that may raise; the check of the verbosity and progress output are left out.
-/

namespace Lambeq
namespace Bank
open Deriv
set_option linter.unusedSimpArgs false
set_option linter.unusedVariables false

/-- ccgbank_parser.py:311-324: what becomes of the trees that come one after the other; `e` is the exception that ends them. -/
def diagramGen {D : Type} (suppress : Bool) (toDiagram : CTree → Except PyErr D) (e : Option PyErr) :
    List (List Char × Option CTree) → Gen (List Char × Option D)
  | [] => ([], e)
  | (k, none) :: rest => ((k, none) :: (diagramGen suppress toDiagram e rest).1, (diagramGen suppress toDiagram e rest).2)
  | (k, some t) :: rest =>
    match toDiagram t with
    | .ok d => ((k, some d) :: (diagramGen suppress toDiagram e rest).1, (diagramGen suppress toDiagram e rest).2)
    | .error x =>
      if suppress then ((k, none) :: (diagramGen suppress toDiagram e rest).1, (diagramGen suppress toDiagram e rest).2)
      else ([], some x)

/-- ccgbank_parser.py:266-324 -/
def readDiagrams {D : Type} (suppress : Bool) (toDiagram : CTree → Except PyErr D) (files : List (List (List Char))) : Gen (List Char × Option D) :=
  diagramGen suppress toDiagram (readSection suppress files).2 (readSection suppress files).1

/-- ccgbank_parser.py:260-264: the dictionary; `none` for a key that is not there. -/
def section2diagrams {D : Type} (suppress : Bool) (toDiagram : CTree → Except PyErr D) (files : List (List (List Char))) :
    Except PyErr (List Char → Option (Option D)) :=
  match (readDiagrams suppress toDiagram files).2 with
  | some e => .error e
  | none => .ok (fun k => ((readDiagrams suppress toDiagram files).1.reverse.find? (fun p => p.1 == k)).map Prod.snd)

/-- C94: with exceptions suppressed, the diagrams of a section come in the order of its entries, with their IDs; an entry that cannot be read
or drawn has `None`. Nothing is raised. -/
theorem C94_diagrams_suppressed {D : Type} (toDiagram : CTree → Except PyErr D) (files : List (List Entry)) (h : ∀ f ∈ files, ∀ e ∈ f, e.Ok) :
    readDiagrams true toDiagram (files.map (fun f => f.flatMap Entry.lines)) =
      (files.flatten.map (fun e => (e.id, e.deriv.tree.toOption.bind (fun t => (toDiagram t).toOption))), none) := by
  rw [readDiagrams, C94_section true files h (.inl rfl)]
  dsimp only
  generalize files.flatten = es
  induction es with
  | nil => rfl
  | cons e es ih =>
    simp only [List.map_cons]
    cases ht : e.deriv.tree.toOption with
    | none => rw [diagramGen, ih]; rfl
    | some t =>
      rw [diagramGen]
      cases hd : toDiagram t with
      | ok d => simp only [ih]; simp [hd, Except.toOption]
      | error x => simp only [ih, if_true]; simp [hd, Except.toOption]

/-- C94: without suppression, and if all entries can be read, the diagrams come in the order of the entries up to the first that cannot be
drawn, whose exception ends the section. -/
theorem C94_diagrams_raised {D : Type} (toDiagram : CTree → Except PyErr D) (files : List (List Entry)) (h : ∀ f ∈ files, ∀ e ∈ f, e.Ok)
    (hs : ∀ f ∈ files, ∀ e ∈ f, ∃ t, e.deriv.tree = .ok t) :
    (∃ ds : List D, List.Forall₂ (fun e d => ∃ t, e.deriv.tree = .ok t ∧ toDiagram t = .ok d) files.flatten ds ∧
      readDiagrams false toDiagram (files.map (fun f => f.flatMap Entry.lines)) = ((files.flatten.zip ds).map (fun p => (p.1.id, some p.2)), none)) ∨
    ∃ before bad after, files.flatten = before ++ bad :: after ∧ ∃ (ds : List D) (t : CTree) (x : PyErr),
      List.Forall₂ (fun e d => ∃ t, e.deriv.tree = .ok t ∧ toDiagram t = .ok d) before ds ∧ bad.deriv.tree = .ok t ∧ toDiagram t = .error x ∧
      readDiagrams false toDiagram (files.map (fun f => f.flatMap Entry.lines)) = ((before.zip ds).map (fun p => (p.1.id, some p.2)), some x) := by
  rw [readDiagrams, C94_section false files h (.inr hs)]
  dsimp only
  have hs' : ∀ e ∈ files.flatten, ∃ t, e.deriv.tree = .ok t := by
    intro e he
    obtain ⟨f, hf, hef⟩ := List.mem_flatten.1 he
    exact hs f hf e hef
  generalize files.flatten = es at hs'
  induction es with
  | nil => left; exact ⟨[], .nil, rfl⟩
  | cons e es ih =>
    obtain ⟨t, ht⟩ := hs' e (by simp)
    simp only [List.map_cons]
    rw [ht]
    simp only [Except.toOption]
    rw [diagramGen]
    cases hd : toDiagram t with
    | error x => right; exact ⟨[], e, es, rfl, [], t, x, .nil, ht, hd, rfl⟩
    | ok d =>
      dsimp only
      rcases ih (fun e he => hs' e (by simp [he])) with ⟨ds, h1, h2⟩ | ⟨before, bad, after, h0, ds, t', x, h1, h2, h3, h4⟩
      · left
        refine ⟨d :: ds, .cons ⟨t, ht, hd⟩ h1, ?_⟩
        simp only [Except.toOption] at h2
        rw [h2]; rfl
      · right
        refine ⟨e :: before, bad, after, by rw [h0]; rfl, d :: ds, t', x, .cons ⟨t, ht, hd⟩ h1, h2, h3, ?_⟩
        simp only [Except.toOption] at h4
        rw [h4]; rfl

/-- C94: where the IDs of a section differ, the dictionary has for each the diagram of its derivation, or `None`. -/
theorem C94_diagrams_dictionary {D : Type} (toDiagram : CTree → Except PyErr D) (files : List (List Entry)) (h : ∀ f ∈ files, ∀ e ∈ f, e.Ok)
    (hd : (files.flatten.map Entry.id).Nodup) :
    ∃ dict, section2diagrams true toDiagram (files.map (fun f => f.flatMap Entry.lines)) = .ok dict ∧
      ∀ k v, dict k = some v ↔ ∃ e ∈ files.flatten, e.id = k ∧ v = e.deriv.tree.toOption.bind (fun t => (toDiagram t).toOption) := by
  rw [section2diagrams, C94_diagrams_suppressed toDiagram files h]
  refine ⟨_, rfl, ?_⟩
  intro k v
  generalize files.flatten = es at hd
  constructor
  · intro hv
    simp only [Option.map_eq_some_iff] at hv
    obtain ⟨p, hp, rfl⟩ := hv
    have hm := List.mem_of_find?_eq_some hp
    have hk : p.1 = k := by simpa using List.find?_some hp
    rw [List.mem_reverse] at hm
    obtain ⟨e, he, rfl⟩ := List.mem_map.1 hm
    exact ⟨e, he, hk, rfl⟩
  · rintro ⟨e, he, rfl, rfl⟩
    dsimp only
    cases hf : (es.map (fun e => (e.id, e.deriv.tree.toOption.bind (fun t => (toDiagram t).toOption)))).reverse.find? (fun p => p.1 == e.id) with
    | none =>
      rw [List.find?_eq_none] at hf
      have := hf (e.id, e.deriv.tree.toOption.bind (fun t => (toDiagram t).toOption)) (List.mem_reverse.2 (List.mem_map.2 ⟨e, he, rfl⟩))
      simp at this
    | some p =>
      have hm := List.mem_of_find?_eq_some hf
      have hk : p.1 = e.id := by simpa using List.find?_some hf
      rw [List.mem_reverse] at hm
      obtain ⟨e', he', rfl⟩ := List.mem_map.1 hm
      have : e' = e := List.inj_on_of_nodup_map hd he' he hk
      subst this
      rfl

example : ∀ f ∈ [[exEntry]], ∀ e ∈ f, e.Ok ∧ ∃ t, e.deriv.tree = .ok t := by
  intro f hf e he
  simp only [List.mem_singleton] at hf
  subst hf
  simp only [List.mem_singleton] at he
  subst he
  exact ⟨⟨by simp only [Field]; decide, by decide, exDeriv_ok, by decide⟩, _, exDeriv_tree⟩

end Bank
end Lambeq
