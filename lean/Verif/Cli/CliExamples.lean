import Verif.Cli.CliPipeline

/-! # Command-line interface: examples and refuted claims (C108) -/

namespace Lambeq
namespace Cli

/-- A world for the examples: a diagram is the sentence; `x` cannot be parsed. -/
def exWorld : World String String where
  readFile := fun _ => .ok "x\nab"
  stdin := "ab"
  strip := fun s => s
  splitSentences := fun s => [s]
  tokensOf := fun s => [s]
  reader := fun _ ss _ => .ok (ss.map (fun s => match s with | .text t => if t = "x" then none else some t | .tokens _ => none))
  parseDiagrams := fun _ _ ss _ => .ok (ss.map (fun s => match s with | .text t => if t = "x" then none else some t | .tokens _ => none))
  parseTrees := fun _ _ ss _ => .ok (ss.map (fun s => match s with | .text t => if t = "x" then none else some t | .tokens _ => none))
  dropTrivial := fun t => t
  isPregroup := fun _ => true
  pregroupNF := fun d => .ok d
  removeSwaps := fun d => .ok d
  rewrite := fun _ d => .ok d
  normalForm := fun d => .ok d
  supports := fun _ _ => true
  ansatz := fun _ _ _ _ d => .ok (d ++ "!")
  render := fun _ d => .ok d
  deriv := fun _ t => t
  draw := fun _ => .ok ()

/-- The world of the examples works sentence by sentence, and nothing fails. -/
example : ∃ read parse tree, Sentencewise exWorld read parse tree := ⟨_, _, _, ⟨fun _ _ _ => rfl, fun _ _ _ _ => rfl, fun _ _ _ _ => rfl⟩⟩
theorem exTotal : Total exWorld := ⟨fun _ => ⟨_, rfl⟩, fun _ _ _ => ⟨_, rfl⟩, fun _ _ _ _ => ⟨_, rfl⟩, fun _ _ _ _ => ⟨_, rfl⟩, fun _ => ⟨_, rfl⟩, fun _ => ⟨_, rfl⟩, fun _ _ => ⟨_, rfl⟩,
  fun _ => ⟨_, rfl⟩, fun _ _ _ _ _ => ⟨_, rfl⟩, fun _ _ => ⟨_, rfl⟩, fun _ => rfl⟩

/-- Command-line arguments of the examples. -/
def cmd (l : List (Key × Val)) : Args := parseArgs (fun k => (l.find? (fun kv => decide (kv.1 = k))).map Prod.snd)

/-- Text on standard output; an ansatz with options, pickled; two images. -/
example : main exWorld (cmd [(.inputSentence, .str "ab")]) none = ([.print "ab"], .ok ()) := by decide +kernel
example : main exWorld (cmd [(.inputSentence, .str "ab"), (.ansatz, .str "iqp"), (.ansatzOptions, .opts [("dim_n", 1), ("dim_s", 1)]), (.outputFormat, .str "pickle"), (.outputFile, .str "f")]) none =
    ([.pickle (.str "f") ["ab!"]], .ok ()) := by decide +kernel
example : main exWorld (cmd [(.inputSentence, .str "ab\ncd"), (.outputFormat, .str "image"), (.outputDir, .str "d")]) none =
    ([.mkdir (.str "d"), .image "d/diagram_1.png" none none "ab", .image "d/diagram_2.png" none none "cd"], .ok ()) := by decide +kernel

/-- The number in the name of an image is not that of the sentence: sentences that cannot be parsed are not counted. Here the second sentence becomes image 1. -/
theorem C108_refuted_numbering : main exWorld (cmd [(.inputFile, .str "in"), (.outputFormat, .str "image"), (.outputDir, .str "d")]) none =
    ([.mkdir (.str "d"), .image "d/diagram_1.png" none none "ab"], .ok ()) := by decide +kernel

/-- JSON output of string diagrams is accepted and fails, whatever the input. -/
theorem C108_refuted_json {D T : Type} (W : World D T) (hT : Total W) :
    let a := effective (cmd [(.inputSentence, .str "ab"), (.outputFormat, .str "json"), (.outputFile, .str "f")]) none
    validate a = .ok () ∧ ∃ e, (pipeline W a).2 = .error e := by
  have hv : Valid (effective (cmd [(.inputSentence, .str "ab"), (.outputFormat, .str "json"), (.outputFile, .str "f")]) none) :=
    ⟨by decide +kernel, by decide +kernel, ⟨"ab", by decide +kernel⟩, ⟨[], by decide +kernel⟩, ⟨[], by decide +kernel⟩⟩
  have hok : validate (effective (cmd [(.inputSentence, .str "ab"), (.outputFormat, .str "json"), (.outputFile, .str "f")]) none) = .ok () := by decide +kernel
  refine ⟨hok, (C108_accepted_partial hT _ hv hok).mpr (.inl ⟨?_, by decide +kernel⟩)⟩
  rw [IsDiagram]; decide +kernel

/-- An ansatz without `--ansatz_options` is accepted and fails, though all options have defaults: these are filled in only if the argument is there. -/
theorem C108_refuted_ansatz_options {D T : Type} (W : World D T) (hT : Total W) :
    let a := effective (cmd [(.inputSentence, .str "ab"), (.ansatz, .str "iqp"), (.outputFormat, .str "pickle"), (.outputFile, .str "f")]) none
    validate a = .ok () ∧ ∃ e, (pipeline W a).2 = .error e := by
  have hv : Valid (effective (cmd [(.inputSentence, .str "ab"), (.ansatz, .str "iqp"), (.outputFormat, .str "pickle"), (.outputFile, .str "f")]) none) :=
    ⟨by decide +kernel, by decide +kernel, ⟨"ab", by decide +kernel⟩, ⟨[], by decide +kernel⟩, ⟨[], by decide +kernel⟩⟩
  have hok : validate (effective (cmd [(.inputSentence, .str "ab"), (.ansatz, .str "iqp"), (.outputFormat, .str "pickle"), (.outputFile, .str "f")]) none) = .ok () := by decide +kernel
  have hopt : effective (cmd [(.inputSentence, .str "ab"), (.ansatz, .str "iqp"), (.outputFormat, .str "pickle"), (.outputFile, .str "f")]) none .ansatzOptions = .opts [] := by decide +kernel
  refine ⟨hok, (C108_accepted_partial hT _ hv hok).mpr (.inr (.inl ⟨?_, ?_, ?_⟩))⟩
  · rw [IsDiagram]; decide +kernel
  · decide +kernel
  · intro o h
    rw [hopt] at h
    cases h
    exact .inl rfl

/-- Accepted arguments that do not fail, so the cases of `C108_accepted_partial` are not all there is. -/
example : (pipeline exWorld (effective (cmd [(.inputSentence, .str "ab")]) none)).2 = .ok () := by decide +kernel

end Cli
end Lambeq
