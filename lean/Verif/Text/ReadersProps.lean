import Verif.Text.Readers
import Verif.Ccg.TreePlanar

/-!
# C33, C34: readers
-/

namespace Lambeq
open Diagram GDiagram
set_option linter.unusedSimpArgs false
set_option linter.unusedVariables false
namespace Reader

/-! ## Tokens -/

/-- A token list is a splitting of a text: all tokens are non-empty and free of whitespace, and putting
them together gives the text without its whitespace; two tokens are never adjacent in the text, i.e.
the text is `gap token gap token … gap` with non-empty inner gaps. -/
inductive Splits (ws : Char → Bool) : List Char → List String → Prop
  | nil (gap : List Char) (hg : ∀ c ∈ gap, ws c = true) : Splits ws gap []
  | last (gap tok gap' : List Char) (hg : ∀ c ∈ gap, ws c = true) (hg' : ∀ c ∈ gap', ws c = true)
      (ht : tok ≠ []) (hw : ∀ c ∈ tok, ws c = false) : Splits ws (gap ++ tok ++ gap') [String.ofList tok]
  | cons (gap tok : List Char) (c : Char) (rest : List Char) (toks : List String) (hg : ∀ c ∈ gap, ws c = true)
      (ht : tok ≠ []) (hw : ∀ c ∈ tok, ws c = false) (hc : ws c = true) (h : Splits ws rest toks) :
      Splits ws (gap ++ tok ++ c :: rest) (String.ofList tok :: toks)

theorem Splits.gap_cons {ws : Char → Bool} {c : Char} (hc : ws c = true) {s : List Char} {toks : List String}
    (h : Splits ws s toks) : Splits ws (c :: s) toks := by
  cases h with
  | nil _ hg => exact .nil _ (by simpa [hc] using hg)
  | last gap tok gap' hg hg' ht hw =>
    have := Splits.last (ws := ws) (c :: gap) tok gap' (by simpa [hc] using hg) hg' ht hw
    simpa using this
  | cons gap tok c' rest toks hg ht hw hc' h =>
    have := Splits.cons (ws := ws) (c :: gap) tok c' rest toks (by simpa [hc] using hg) ht hw hc' h
    simpa using this

theorem splitAux_spec (ws : Char → Bool) : ∀ (s cur : List Char), (∀ c ∈ cur, ws c = false) →
    Splits ws (cur ++ s) (splitAux ws s cur)
  | [], cur, h => by
      unfold splitAux
      cases cur with
      | nil => exact .nil [] (by simp)
      | cons a t =>
        have := Splits.last (ws := ws) [] (a :: t) [] (by simp) (by simp) (by simp) h
        simpa using this
  | c :: cs, cur, h => by
      unfold splitAux
      split
      · next hc =>
        have ih := splitAux_spec ws cs [] (by simp)
        cases cur with
        | nil => simpa using ih.gap_cons hc
        | cons a t =>
          have := Splits.cons (ws := ws) [] (a :: t) c cs _ (by simp) (by simp) h hc ih
          simpa using this
      · next hc =>
        have ih := splitAux_spec ws cs (cur ++ [c]) (by
          intro x hx
          rcases List.mem_append.1 hx with hx | hx
          · exact h x hx
          · simp only [List.mem_singleton] at hx; subst hx; simpa using hc)
        simpa using ih

/-- **C33**, tokens: the token list is used as it is when `tokenised`, a string is split at whitespace
when not, and every other combination is refused. -/
theorem C33_tokens (ws : Char → Bool) :
    (∀ l, tokensOf ws (.tokens l) true = .ok l) ∧
    (∀ s, ∃ l, tokensOf ws (.str s) false = .ok l ∧ Splits ws s l) ∧
    (∀ s, tokensOf ws (.str s) true = .error .valueError) ∧
    (∀ l, tokensOf ws (.tokens l) false = .error .valueError) ∧
    (∀ b, tokensOf ws .other b = .error .valueError) := by
  refine ⟨fun _ => rfl, fun s => ⟨_, rfl, ?_⟩, fun _ => rfl, fun _ => rfl, fun b => by cases b <;> rfl⟩
  simpa using splitAux_spec ws s [] (by simp)

/-! ## The row of words -/

def wordBox (t : Ty) (w : String) : Box := .word w t 0

theorem offsets_tensor (f g : GDiagram) :
    (tensor f g).offsets = f.offsets ++ g.offsets.map (fun i => f.cod.length + i) := by
  simp [Diagram.offsets, tensor_layers, Layer.extend, Function.comp_def, List.length_append]

theorem row_spec (t : Ty) : ∀ (ws : List String),
    (tensorN (ws.map (fun w => (ofBox (.word w t 0) : GDiagram)))).WT ∧
    (tensorN (ws.map (fun w => (ofBox (.word w t 0) : GDiagram)))).dom = [] ∧
    (tensorN (ws.map (fun w => (ofBox (.word w t 0) : GDiagram)))).cod = (List.replicate ws.length t).flatten ∧
    (tensorN (ws.map (fun w => (ofBox (.word w t 0) : GDiagram)))).boxes = ws.map (wordBox t) ∧
    (tensorN (ws.map (fun w => (ofBox (.word w t 0) : GDiagram)))).offsets = (List.range ws.length).map (· * t.length)
  | [] => ⟨WT.id [], rfl, rfl, rfl, rfl⟩
  | w :: ws => by
      have ih := row_spec t ws
      rw [tensorN_eq_foldr] at ih ⊢
      obtain ⟨h1, h2, h3, h4, h5⟩ := ih
      simp only [List.map_cons, List.foldr_cons]
      refine ⟨(WT.ofBox _).tensor h1, ?_, ?_, ?_, ?_⟩
      · rw [tensor_dom, h2]; rfl
      · rw [tensor_cod, h3, List.length_cons, List.replicate_succ, List.flatten_cons]; rfl
      · rw [boxes_tensor, h4]; rfl
      · rw [offsets_tensor, h5]
        simp only [List.length_cons, List.range_succ_eq_map, List.map_cons, List.map_map]
        simp only [Diagram.offsets, ofBox, List.map_cons, List.map_nil, List.cons_append, List.nil_append,
          List.length_nil, List.cons.injEq, Nat.zero_mul, true_and]
        apply List.map_congr_left
        intro i _
        show t.length + i * t.length = (i + 1) * t.length
        rw [Nat.succ_mul, Nat.add_comm]

theorem tensorN_cons (d : GDiagram) (ds : List GDiagram) : tensorN (d :: ds) = tensor d (tensorN ds) := by
  simp [tensorN_eq_foldr]

/-! ## The combining loop -/

/-- One step, when the diagram's first output wires are the inputs of the combining diagram. -/
theorem combineStep_ok {comb d : GDiagram} {rest : Ty} (h : d.cod = comb.dom ++ rest) :
    combineStep comb d = .ok ⟨d.dom, comb.cod ++ rest, d.layers ++ comb.layers.map (Layer.extend [] rest)⟩ := by
  unfold combineStep
  rw [pySlice_nat_from, h, List.drop_left]
  rw [andThen_eq_ok (by rw [tensor_dom, h]; rfl)]
  simp [tensor_cod, tensor_layers, Diagram.id]

theorem combineStep_inv {comb d d' : GDiagram} (h : combineStep comb d = .ok d') :
    ∃ rest, d.cod = comb.dom ++ rest ∧
      d' = ⟨d.dom, comb.cod ++ rest, d.layers ++ comb.layers.map (Layer.extend [] rest)⟩ := by
  have h' := h
  unfold combineStep at h'
  obtain ⟨e, _⟩ := andThen_ok_iff.1 h'
  rw [tensor_dom] at e
  refine ⟨_, e, ?_⟩
  rw [combineStep_ok e] at h
  simp only [Except.ok.injEq] at h
  exact h.symm

theorem boxes_extend (ls : List GLayer) (rest : Ty) :
    (ls.map (Layer.extend [] rest)).map (·.box) = ls.map (·.box) := by
  simp [Layer.extend, Function.comp_def]

theorem offs_extend (ls : List GLayer) (rest : Ty) :
    (ls.map (Layer.extend [] rest)).map (·.left.length) = ls.map (·.left.length) := by
  simp [Layer.extend, Function.comp_def]

theorem combineStep_WT {comb d d' : GDiagram} (hc : comb.WT) (hd : d.WT) (h : combineStep comb d = .ok d') : d'.WT := by
  unfold combineStep at h
  exact hd.andThen (hc.tensor (WT.id _)) h

theorem combineLoop_inv {comb : GDiagram} (hc : comb.WT) : ∀ (fuel : Nat) (d r : GDiagram), d.WT →
    combineLoop comb fuel d = some (.ok r) →
    r.WT ∧ r.dom = d.dom ∧ r.cod.length ≤ 1 ∧
      ∃ k, r.boxes = d.boxes ++ (List.replicate k comb.boxes).flatten ∧
        r.offsets = d.offsets ++ (List.replicate k comb.offsets).flatten
  | fuel, d, r, hd, h => by
      unfold combineLoop at h
      split at h
      · match fuel, h with
        | fuel + 1, h =>
          dsimp only at h
          split at h
          · next d' hs =>
            obtain ⟨h1, h2, h3, k, h4, h5⟩ := combineLoop_inv hc fuel d' r (combineStep_WT hc hd hs) h
            obtain ⟨rest, e, rfl⟩ := combineStep_inv hs
            refine ⟨h1, h2, h3, k + 1, ?_, ?_⟩
            · rw [h4]
              simp only [Diagram.boxes, List.map_append, boxes_extend, List.replicate_succ, List.flatten_cons,
                List.append_assoc]
            · rw [h5]
              simp only [Diagram.offsets, List.map_append, offs_extend, List.replicate_succ, List.flatten_cons,
                List.append_assoc]
          · simp at h
      · next hl =>
        simp only [Option.some.injEq, Except.ok.injEq] at h
        subst h
        exact ⟨hd, rfl, by omega, 0, by simp, by simp⟩

/-- **C33**, every linear reader: whatever the combining diagram, word type and start box, if a diagram
is returned it is well typed, starts where the start box starts, has at most one output wire, and consists
of the start box, then one word box per token in order, then copies of the combining diagram, each applied
to the left-most wires. -/
theorem C33_linear (comb start : GDiagram) (wordType : Ty) (hc : comb.WT) (hs : start.WT) (fuel : Nat)
    (tokens : List String) (d : GDiagram) (h : linear comb wordType start fuel tokens = some (.ok d)) :
    d.WT ∧ d.dom = start.dom ∧ d.cod.length ≤ 1 ∧
      ∃ k, d.boxes = start.boxes ++ tokens.map (fun w => Box.word w wordType 0)
          ++ (List.replicate k comb.boxes).flatten ∧
        d.offsets = start.offsets ++ (List.range tokens.length).map (fun i => start.cod.length + i * wordType.length)
          ++ (List.replicate k comb.offsets).flatten := by
  unfold linear at h
  rw [tensorN_cons] at h
  obtain ⟨r1, r2, r3, r4, r5⟩ := row_spec wordType tokens
  obtain ⟨h1, h2, h3, k, h4, h5⟩ := combineLoop_inv hc fuel _ d (hs.tensor r1) h
  refine ⟨h1, ?_, h3, k, ?_, ?_⟩
  · rw [h2, tensor_dom, r2, List.append_nil]
  · rw [h4, boxes_tensor, r4]; rfl
  · rw [h5, offsets_tensor, r5, List.map_map]; rfl

/-- **C33**: if the combining diagram has fewer outputs than inputs, reading ends on every sentence (with
a diagram or an error), independently of how long one is prepared to wait. -/
theorem C33_linear_terminates (comb start : GDiagram) (wordType : Ty) (hlt : comb.cod.length < comb.dom.length)
    (tokens : List String) :
    ∃ n r, ∀ fuel, n ≤ fuel → linear comb wordType start fuel tokens = some r := by
  have key : ∀ (m : Nat) (d : GDiagram), d.cod.length ≤ m →
      ∃ n r, ∀ fuel, n ≤ fuel → combineLoop comb fuel d = some r := by
    intro m
    induction m with
    | zero => intro d hd; exact ⟨0, _, fun fuel _ => by unfold combineLoop; rw [if_neg (by omega)]⟩
    | succ m ih =>
      intro d hd
      by_cases hl : d.cod.length > 1
      · cases hs : combineStep comb d with
        | error e =>
          refine ⟨1, .error e, fun fuel hf => ?_⟩
          match fuel, hf with
          | fuel + 1, _ => unfold combineLoop; rw [if_pos hl]; simp only [hs]
        | ok d' =>
          obtain ⟨rest, e, rfl⟩ := combineStep_inv hs
          obtain ⟨n, r, hr⟩ := ih ⟨d.dom, comb.cod ++ rest, d.layers ++ comb.layers.map (Layer.extend [] rest)⟩
            (by rw [e, List.length_append] at hd; simp only [List.length_append]; omega)
          refine ⟨n + 1, r, fun fuel hf => ?_⟩
          match fuel, hf with
          | fuel + 1, hf => unfold combineLoop; rw [if_pos hl]; simp only [hs]; exact hr fuel (by omega)
      · exact ⟨0, _, fun fuel _ => by unfold combineLoop; rw [if_neg hl]⟩
  exact key _ _ (Nat.le_refl _)

/-- Total correctness of the loop for a combining diagram with one output. -/
theorem combineLoop_total {comb : GDiagram} {a : Ob} {more : Ty} (hcod : comb.cod = [a]) (hdom : comb.dom = a :: more)
    (hne : more ≠ []) : ∀ (k : Nat) (d : GDiagram), d.cod = a :: (List.replicate k more).flatten →
    ∃ r, (∀ fuel, k ≤ fuel → combineLoop comb fuel d = some (.ok r)) ∧ r.cod = [a]
  | 0, d, h => ⟨d, fun fuel _ => by unfold combineLoop; rw [if_neg (by simp [h])], by simpa using h⟩
  | k + 1, d, h => by
      have e : d.cod = comb.dom ++ (List.replicate k more).flatten := by
        rw [h, hdom, List.replicate_succ, List.flatten_cons]; rfl
      have hs := combineStep_ok e
      obtain ⟨r, hr, hc⟩ := combineLoop_total hcod hdom hne k _ (show (Diagram.mk d.dom (comb.cod ++ (List.replicate k more).flatten)
        (d.layers ++ comb.layers.map (Layer.extend [] (List.replicate k more).flatten)) : GDiagram).cod = _ by rw [hcod]; rfl)
      refine ⟨r, fun fuel hf => ?_, hc⟩
      match fuel, hf with
      | fuel + 1, hf =>
        unfold combineLoop
        have : d.cod.length > 1 := by
          rw [e, hdom]
          cases more with
          | nil => exact absurd rfl hne
          | cons => simp
        rw [if_pos this]
        simp only [hs]
        exact hr fuel (by omega)

/-- **C33** `stairs_reader`: for every non-empty sentence, however long, the result is the row of words
followed by one `STAIR` less than there are words, each on the two left-most wires. -/
theorem C33_stairs (tokens : List String) (hne : tokens ≠ []) :
    ∃ d, (∀ fuel, tokens.length ≤ fuel → stairsReader fuel tokens = some (.ok d)) ∧ d.WT ∧ d.dom = [] ∧
      d.cod = [S] ∧
      d.boxes = tokens.map (fun w => Box.word w [S] 0) ++ List.replicate (tokens.length - 1) (.gen "STAIR" [S, S] [S] 0) ∧
      d.offsets = List.range tokens.length ++ List.replicate (tokens.length - 1) 0 := by
  have hl : 0 < tokens.length := List.length_pos_iff.2 hne
  obtain ⟨r1, r2, r3, r4, r5⟩ := row_spec [S] tokens
  have hfl : ∀ n, (List.replicate n [S]).flatten = List.replicate n S := by
    intro n; induction n with
    | zero => rfl
    | succ n ih => rw [List.replicate_succ, List.flatten_cons, ih]; rfl
  obtain ⟨r, hr, hc⟩ := combineLoop_total (comb := ofBox (.gen "STAIR" [S, S] [S] 0)) (a := S) (more := [S]) rfl rfl (by simp)
    (tokens.length - 1) (tensorN (Diagram.id [] :: tokens.map (fun w => ofBox (.word w [S] 0))))
    (by rw [tensorN_cons, tensor_id_nil_left, r3]
        conv => lhs; rw [show tokens.length = tokens.length - 1 + 1 by omega]
        rw [List.replicate_succ, List.flatten_cons]; rfl)
  have hr' := fun fuel (hf : tokens.length ≤ fuel) => hr fuel (by omega)
  obtain ⟨c1, c2, c3, k, c4, c5⟩ := C33_linear (ofBox (.gen "STAIR" [S, S] [S] 0)) (Diagram.id []) [S] (WT.ofBox _) (WT.id _) _ tokens r
    (hr' _ (Nat.le_refl _))
  -- counting wires gives the number of steps
  have hk : k = tokens.length - 1 := by
    have hcount : ∀ (fuel : Nat) (d r : GDiagram) , combineLoop (ofBox (.gen "STAIR" [S, S] [S] 0)) fuel d = some (.ok r) →
        r.boxes.length + r.cod.length = d.boxes.length + d.cod.length := by
      intro fuel
      induction fuel with
      | zero =>
        intro d r h
        unfold combineLoop at h
        split at h
        · simp at h
        · simp only [Option.some.injEq, Except.ok.injEq] at h; rw [h]
      | succ fuel ih =>
        intro d r h
        unfold combineLoop at h
        split at h
        · dsimp only at h
          split at h
          · next d' hs =>
            have := ih _ _ h
            obtain ⟨rest, e, rfl⟩ := combineStep_inv hs
            rw [this, e]
            simp [Diagram.boxes, ofBox, BoxSig.dom, BoxSig.cod, Box.dom, Box.cod]
            omega
          · simp at h
        · simp only [Option.some.injEq, Except.ok.injEq] at h; rw [h]
    have := hcount _ _ _ (hr' _ (Nat.le_refl _))
    rw [c4, tensorN_cons, tensor_id_nil_left, r3, r4, hc] at this
    simp [boxes_id, ofBox, Diagram.boxes, hfl] at this
    have h0 : (Diagram.id [] : GDiagram).layers.length = 0 := rfl
    omega
  subst hk
  refine ⟨r, hr', c1, c2, hc, ?_, ?_⟩
  · rw [c4]
    have : ∀ n (b : Box), (List.replicate n [b]).flatten = List.replicate n b := by
      intro n b; induction n with
      | zero => rfl
      | succ n ih => rw [List.replicate_succ, List.flatten_cons, ih]; rfl
    simp [boxes_id, ofBox, Diagram.boxes, Diagram.id, this]
  · rw [c5]
    simp [Diagram.offsets, Diagram.id, ofBox]

/-- **C33** `cups_reader`: for every sentence the result is `START`, the words, and one cup per word,
each on the two left-most wires. -/
theorem C33_cups (tokens : List String) :
    ∃ d, (∀ fuel, tokens.length ≤ fuel → cupsReader fuel tokens = some (.ok d)) ∧ d.WT ∧ d.dom = [] ∧
      d.cod = [S] ∧
      d.boxes = .word "START" [S] 0 :: tokens.map (fun w => Box.word w [Sr, S] 0)
        ++ List.replicate tokens.length (.cup S Sr false) ∧
      d.offsets = 0 :: (List.range tokens.length).map (fun i => 1 + i * 2) ++ List.replicate tokens.length 0 := by
  obtain ⟨r1, r2, r3, r4, r5⟩ := row_spec [Sr, S] tokens
  let comb : GDiagram := ofBox (.cup S Sr false)
  have key : ∀ (k : Nat) (d : GDiagram), d.cod = S :: (List.replicate k [Sr, S]).flatten →
      ∃ r, (∀ fuel, k ≤ fuel → combineLoop comb fuel d = some (.ok r)) ∧ r.cod = [S] ∧
        r.boxes = d.boxes ++ List.replicate k (.cup S Sr false) ∧ r.offsets = d.offsets ++ List.replicate k 0 := by
    intro k
    induction k with
    | zero =>
      intro d h
      exact ⟨d, fun fuel _ => by unfold combineLoop; rw [if_neg (by simp [h])], by simpa using h, by simp, by simp⟩
    | succ k ih =>
      intro d h
      have e : d.cod = comb.dom ++ (S :: (List.replicate k [Sr, S]).flatten) := by
        rw [h, List.replicate_succ, List.flatten_cons]; rfl
      have hs := combineStep_ok e
      obtain ⟨r, hr, hc, hb, ho⟩ := ih ⟨d.dom, comb.cod ++ (S :: (List.replicate k [Sr, S]).flatten),
        d.layers ++ comb.layers.map (Layer.extend [] (S :: (List.replicate k [Sr, S]).flatten))⟩ rfl
      refine ⟨r, fun fuel hf => ?_, hc, ?_, ?_⟩
      · match fuel, hf with
        | fuel + 1, hf =>
          unfold combineLoop
          have : d.cod.length > 1 := by rw [e]; simp [comb, ofBox, BoxSig.dom, Box.dom]
          rw [if_pos this]
          simp only [hs]
          exact hr fuel (by omega)
      · rw [hb]; simp [Diagram.boxes, comb, ofBox, Layer.extend, List.replicate_succ]
      · rw [ho]; simp [Diagram.offsets, comb, ofBox, Layer.extend, List.replicate_succ]
  obtain ⟨r, hr, hc, hb, ho⟩ := key tokens.length
    (tensorN (ofBox (.word "START" [S] 0) :: tokens.map (fun w => ofBox (.word w [Sr, S] 0))))
    (by rw [tensorN_cons, tensor_cod, r3]; rfl)
  obtain ⟨c1, c2, -⟩ := C33_linear comb (ofBox (.word "START" [S] 0)) [Sr, S] (WT.ofBox _) (WT.ofBox _) _ tokens r
    (hr _ (Nat.le_refl _))
  refine ⟨r, hr, c1, c2, hc, ?_, ?_⟩
  · rw [hb, tensorN_cons, boxes_tensor, r4]; rfl
  · rw [ho, tensorN_cons, offsets_tensor, r5, List.map_map]; rfl

/-- **C33** `spiders_reader`: for every sentence the result is the row of words merged by one spider. -/
theorem C33_spiders (tokens : List String) :
    ∃ d, spidersReader tokens = .ok d ∧ d.WT ∧ d.dom = [] ∧ d.cod = [S] ∧
      d.boxes = tokens.map (fun w => Box.word w [S] 0) ++ [.spider S tokens.length 1] := by
  obtain ⟨r1, r2, r3, r4, r5⟩ := row_spec [S] tokens
  have hfl : ∀ n, (List.replicate n [S]).flatten = List.replicate n S := by
    intro n; induction n with
    | zero => rfl
    | succ n ih => rw [List.replicate_succ, List.flatten_cons, ih]; rfl
  have e : (tensorN (Diagram.id [] :: tokens.map (fun w => (ofBox (.word w [S] 0) : GDiagram)))).cod =
      (ofBox (.spider S tokens.length 1) : GDiagram).dom := by
    rw [tensorN_cons, tensor_id_nil_left, r3, hfl]; rfl
  have hok := andThen_eq_ok e
  refine ⟨_, by simp only [spidersReader, mkSpider, ok_bind]; exact hok, ?_, ?_, rfl, ?_⟩
  · refine WT.andThen ?_ (WT.ofBox _) hok
    rw [tensorN_cons, tensor_id_nil_left]; exact r1
  · show (tensorN _).dom = []
    rw [tensorN_cons, tensor_id_nil_left]; exact r2
  · rw [tensorN_cons, tensor_id_nil_left] at *
    simp only [Diagram.boxes, List.map_append] at r4 ⊢
    rw [r4]; rfl

/-- The stairs reader returns the empty diagram, whose output is not `S`, on the empty sentence. -/
theorem C33_stairs_empty (fuel : Nat) : stairsReader fuel [] = some (.ok (Diagram.id [])) := by
  cases fuel <;> rfl

/-- Non-vacuity. -/
example : (∃ d, stairsReader 5 ["John", "likes", "tea"] = some (.ok d) ∧ d.boxes.length = 5) ∧
    (∃ d, cupsReader 5 ["John", "likes", "tea"] = some (.ok d) ∧ d.boxes.length = 7) ∧
    tokensOf Char.isWhitespace (.str "  John likes  tea ".toList) false = .ok ["John", "likes", "tea"] := by
  refine ⟨?_, ?_, by decide +kernel⟩
  · obtain ⟨d, h, _, _, _, h5, _⟩ := C33_stairs ["John", "likes", "tea"] (by simp)
    exact ⟨d, h 5 (by simp), by rw [h5]; rfl⟩
  · obtain ⟨d, h, _, _, _, h5, _⟩ := C33_cups ["John", "likes", "tea"]
    exact ⟨d, h 5 (by simp), by rw [h5]; rfl⟩

/-! ## Tree readers -/

/-- A rule box of the tree reader with `n` inputs. -/
def IsRuleBox (w : Ty) (n : Nat) (b : Box) : Prop := ∃ name, b = .gen name (List.replicate n w).flatten w 0

/-- The number of boxes with two inputs (counted for a non-empty word type). -/
def merges (w : Ty) (d : GDiagram) : Nat :=
  d.boxes.countP (fun b => match b with | .gen _ dom _ _ => dom.length == 2 * w.length | _ => false)

theorem merges_tensor (w : Ty) (f g : GDiagram) : merges w (tensor f g) = merges w f + merges w g := by
  simp [merges, boxes_tensor]

theorem merges_then {w : Ty} {f g r : GDiagram} (h : andThen f g = .ok r) : merges w r = merges w f + merges w g := by
  obtain ⟨_, rfl⟩ := andThen_ok_iff.1 h
  simp [merges, Diagram.boxes]

theorem leaves_ne (t : Tree) : 0 < t.leaves.length := by
  induction t with
  | leaf => simp [Tree.leaves]
  | un r t c ih => exact ih
  | bin r t a b iha ihb => simp [Tree.leaves]; omega

theorem treeAux_spec (mode : Mode) (w : Ty) : ∀ (t : Tree), ∃ d, treeAux mode w t = .ok d ∧ d.WT ∧ d.dom = [] ∧
    d.cod = w ∧ Tree.wordNames d = t.leaves ∧
    (∀ b ∈ d.boxes, (∃ x, b = .word x w 0) ∨ IsRuleBox w 1 b ∨ IsRuleBox w 2 b) ∧
    (mode = .noType → ∀ b ∈ d.boxes, ∀ n a c z, b = .gen n a c z → n = "UNIBOX") ∧
    (w ≠ [] → merges w d + 1 = t.leaves.length)
  | .leaf text ty => by
      refine ⟨_, rfl, WT.ofBox _, rfl, rfl, rfl, ?_, ?_, ?_⟩
      · intro b hb
        simp only [Diagram.boxes, ofBox, List.map_cons, List.map_nil, List.mem_singleton] at hb
        exact .inl ⟨text, hb⟩
      · intro _ b hb n a c z h
        simp only [Diagram.boxes, ofBox, List.map_cons, List.map_nil, List.mem_singleton] at hb
        rw [hb] at h; simp at h
      · intro _; rfl
  | .un rule ty c => by
      obtain ⟨d, h1, h2, h3, h4, h5, h6, h7, h8⟩ := treeAux_spec mode w c
      let g : GDiagram := ofBox (.gen (boxName mode rule [c.ty] (height (.un rule ty c))) w w 0)
      have ht : tensorN [Diagram.id [], d] = d := by
        simp [tensorN_eq_foldr, tensor_id_nil_left, tensor_id_nil_right]
      have hok := andThen_eq_ok (f := d) (g := g) h4
      generalize hD : (Diagram.mk _ _ _ : GDiagram) = D at hok
      have hbox : ∀ b ∈ D.boxes, b ∈ d.boxes ∨ b = .gen (boxName mode rule [c.ty] (height (.un rule ty c))) w w 0 := by
        intro b hb
        rw [← hD] at hb
        simpa [Diagram.boxes, g, ofBox] using hb
      refine ⟨D, by rw [treeAux, h1, ok_bind, ht]; exact hok, h2.andThen (WT.ofBox _) hok, by rw [← hD]; exact h3,
        by rw [← hD]; rfl, ?_, ?_, ?_, ?_⟩
      · rw [Tree.wordNames_append hok, h5]
        simp [Tree.wordNames, g, ofBox, Diagram.boxes, Tree.leaves]
      · intro b hb
        rcases hbox b hb with hb | rfl
        · exact h6 b hb
        · exact .inr (.inl ⟨_, by simp; rfl⟩)
      · intro hm b hb n a c' z e
        rcases hbox b hb with hb | rfl
        · exact h7 hm b hb n a c' z e
        · subst hm
          simp only [Box.gen.injEq, boxName] at e
          exact e.1.symm
      · intro hw
        rw [merges_then hok]
        have : merges w g = 0 := by
          have : w.length ≠ 0 := by simpa using hw
          simp [merges, g, ofBox, Diagram.boxes]; omega
        rw [this]; exact h8 hw
  | .bin rule ty l r => by
      obtain ⟨dl, a1, a2, a3, a4, a5, a6, a7, a8⟩ := treeAux_spec mode w l
      obtain ⟨dr, b1, b2, b3, b4, b5, b6, b7, b8⟩ := treeAux_spec mode w r
      let g : GDiagram := ofBox (.gen (boxName mode rule [l.ty, r.ty] (height (.bin rule ty l r))) (w ++ w) w 0)
      have ht : tensorN [Diagram.id [], dl, dr] = tensor dl dr := by
        simp [tensorN_eq_foldr, tensor_id_nil_left, tensor_id_nil_right]
      have hok := andThen_eq_ok (f := tensor dl dr) (g := g) (by rw [tensor_cod, a4, b4]; rfl)
      generalize hD : (Diagram.mk _ _ _ : GDiagram) = D at hok
      have hbox : ∀ b ∈ D.boxes, b ∈ dl.boxes ∨ b ∈ dr.boxes ∨
          b = .gen (boxName mode rule [l.ty, r.ty] (height (.bin rule ty l r))) (w ++ w) w 0 := by
        intro b hb
        have : D.boxes = (tensor dl dr).boxes ++ g.boxes := by rw [← hD]; simp [Diagram.boxes]
        rw [this, boxes_tensor] at hb
        simpa [Diagram.boxes, g, ofBox, or_assoc] using hb
      refine ⟨D, by rw [treeAux, a1, ok_bind, b1, ok_bind, ht]; exact hok, (a2.tensor b2).andThen (WT.ofBox _) hok,
        by rw [← hD]; simp [tensor_dom, a3, b3], by rw [← hD]; rfl, ?_, ?_, ?_, ?_⟩
      · rw [Tree.wordNames_append hok, Tree.wordNames_tensor, a5, b5]
        simp [Tree.wordNames, g, ofBox, Diagram.boxes, Tree.leaves]
      · intro b hb
        rcases hbox b hb with hb | hb | rfl
        · exact a6 b hb
        · exact b6 b hb
        · exact .inr (.inr ⟨_, by simp [List.replicate_succ]; rfl⟩)
      · intro hm b hb n a c' z e
        rcases hbox b hb with hb | hb | rfl
        · exact a7 hm b hb n a c' z e
        · exact b7 hm b hb n a c' z e
        · subst hm
          simp only [Box.gen.injEq, boxName] at e
          exact e.1.symm
      · intro hw
        rw [merges_then hok, merges_tensor]
        have : merges w g = 1 := by simp [merges, g, ofBox, Diagram.boxes]; omega
        rw [this]
        have := a8 hw
        have := b8 hw
        simp only [Tree.leaves, List.length_append]
        omega

/-- **C34**: for every tree (of any size) that resolves — all derivations do, see below — every mode and
every word type, the tree reader returns a well-typed diagram from no wires to the word type whose word
boxes are the tree's leaves in order; all other boxes combine one or two phrases, exactly one fewer of the
latter than there are words; in mode NO_TYPE they are all called UNIBOX. -/
theorem C34_tree2diagram (t t' : Tree) (ht : t.resolved t.ty = .ok t') (mode : Mode) (w : Ty) (suppress : Bool) :
    ∃ d, tree2diagram t mode w suppress = .ok (some d) ∧ d.WT ∧ d.dom = [] ∧ d.cod = w ∧
      Tree.wordNames d = t.leaves ∧
      (∀ b ∈ d.boxes, (∃ x, b = .word x w 0) ∨ IsRuleBox w 1 b ∨ IsRuleBox w 2 b) ∧
      (mode = .noType → ∀ b ∈ d.boxes, ∀ n a c z, b = .gen n a c z → n = "UNIBOX") ∧
      (w ≠ [] → merges w d + 1 = t.leaves.length) := by
  obtain ⟨d, h1, h2, h3, h4, h5, h6, h7, h8⟩ := treeAux_spec mode w t'
  have hl := Tree.resolved_leaves _ _ _ ht
  refine ⟨d, ?_, h2, h3, h4, by rw [h5, hl], h6, h7, by rw [← hl]; exact h8⟩
  simp only [tree2diagram, ht, ok_bind, h1]

/-- **C34**: every proper derivation tree resolves. -/
theorem C34_proper (t : Tree) (h : Tree.Proper t) : ∃ t', t.resolved t.ty = .ok t' := by
  obtain ⟨t', _, _, h1, _⟩ := Tree.deriv_spec (Tree.proper_deriv h)
  exact ⟨t', h1⟩

/-- **C34**: with `suppress_exceptions=True` nothing is ever raised, and `None` is returned exactly when
an exception would have been raised. -/
theorem C34_suppress (t : Tree) (mode : Mode) (w : Ty) :
    (∃ r, tree2diagram t mode w true = .ok r) ∧
    (tree2diagram t mode w true = .ok none ↔ ∃ e, tree2diagram t mode w false = .error e) ∧
    ∀ d, tree2diagram t mode w false = .ok d → tree2diagram t mode w true = .ok d := by
  unfold tree2diagram
  generalize (do let t' ← t.resolved t.ty; treeAux mode w t') = x
  cases x <;> simp

/-! ### The boxes, node by node -/

/-- There is a path of `n` edges from the root of the tree down to a word. -/
inductive PathTo : Tree → Nat → Prop
  | leaf (x : String) (t : Cat) : PathTo (.leaf x t) 0
  | un (rule : Rule) (t : Cat) (c : Tree) (n : Nat) : PathTo c n → PathTo (.un rule t c) (n + 1)
  | left (rule : Rule) (t : Cat) (l r : Tree) (n : Nat) : PathTo l n → PathTo (.bin rule t l r) (n + 1)
  | right (rule : Rule) (t : Cat) (l r : Tree) (n : Nat) : PathTo r n → PathTo (.bin rule t l r) (n + 1)

/-- `n` is the length of the longest path from the root to a word. -/
def IsHeight (t : Tree) (n : Nat) : Prop := PathTo t n ∧ ∀ m, PathTo t m → m ≤ n

theorem isHeight_height : ∀ t : Tree, IsHeight t (height t)
  | .leaf x t => ⟨.leaf x t, fun m h => by cases h; simp [height]⟩
  | .un rule t c => by
      obtain ⟨h1, h2⟩ := isHeight_height c
      refine ⟨by rw [height, Nat.add_comm]; exact .un _ _ _ _ h1, fun m h => ?_⟩
      cases h with
      | un _ _ _ n h => have := h2 n h; simp only [height]; omega
  | .bin rule t l r => by
      obtain ⟨h1, h2⟩ := isHeight_height l
      obtain ⟨h3, h4⟩ := isHeight_height r
      refine ⟨?_, fun m h => ?_⟩
      · rw [height, Nat.add_comm]
        rcases Nat.le_total (height l) (height r) with h | h
        · rw [Nat.max_eq_right h]; exact .right _ _ _ _ _ h3
        · rw [Nat.max_eq_left h]; exact .left _ _ _ _ _ h1
      · cases h with
        | left _ _ _ _ n h => have := h2 n h; simp only [height]; omega
        | right _ _ _ _ n h => have := h4 n h; simp only [height]; omega

theorem isHeight_unique {t : Tree} {m n : Nat} (h1 : IsHeight t m) (h2 : IsHeight t n) : m = n :=
  Nat.le_antisymm (h2.2 m h1.1) (h1.2 n h2.1)

/-- The nodes of a tree, children before parents, left to right. -/
def postorder : Tree → List Tree
  | .leaf x t => [.leaf x t]
  | .un rule t c => postorder c ++ [.un rule t c]
  | .bin rule t l r => postorder l ++ postorder r ++ [.bin rule t l r]

/-- What the documentation says the box of a node is called. -/
inductive NameOf : Mode → Tree → String → Prop
  | noType (t : Tree) : NameOf .noType t "UNIBOX"
  | height (t : Tree) (n : Nat) : IsHeight t n → NameOf .height t ("layer_" ++ toString n)
  | ruleOnly1 (rule : Rule) (t : Cat) (c : Tree) : NameOf .ruleOnly (.un rule t c) (ruleValue rule)
  | ruleOnly2 (rule : Rule) (t : Cat) (l r : Tree) : NameOf .ruleOnly (.bin rule t l r) (ruleValue rule)
  | ruleType1 (rule : Rule) (t : Cat) (c : Tree) :
      NameOf .ruleType (.un rule t c) (ruleValue rule ++ "(" ++ String.ofList c.ty.toStr ++ ")")
  | ruleType2 (rule : Rule) (t : Cat) (l r : Tree) :
      NameOf .ruleType (.bin rule t l r)
        (ruleValue rule ++ "(" ++ (String.ofList l.ty.toStr ++ ", " ++ String.ofList r.ty.toStr) ++ ")")

/-- The box of a node: a word box for a leaf, a box combining the phrases of the children otherwise. -/
inductive BoxOf (mode : Mode) (w : Ty) : Tree → Box → Prop
  | leaf (x : String) (t : Cat) : BoxOf mode w (.leaf x t) (.word x w 0)
  | un (rule : Rule) (t : Cat) (c : Tree) (n : String) : NameOf mode (.un rule t c) n → BoxOf mode w (.un rule t c) (.gen n w w 0)
  | bin (rule : Rule) (t : Cat) (l r : Tree) (n : String) :
      NameOf mode (.bin rule t l r) n → BoxOf mode w (.bin rule t l r) (.gen n (w ++ w) w 0)

theorem treeAux_boxes (mode : Mode) (w : Ty) : ∀ (t : Tree) (d : GDiagram), treeAux mode w t = .ok d →
    List.Forall₂ (BoxOf mode w) (postorder t) d.boxes
  | .leaf x ty, d, h => by
      cases h
      exact .cons (.leaf _ _) .nil
  | .un rule ty c, d, h => by
      obtain ⟨dc, h1, h2, h3, h4, _⟩ := treeAux_spec mode w c
      have ih := treeAux_boxes mode w c dc h1
      have ht : tensorN [Diagram.id [], dc] = dc := by
        simp [tensorN_eq_foldr, tensor_id_nil_left, tensor_id_nil_right]
      rw [treeAux, h1, ok_bind, ht] at h
      rw [andThen_eq_ok (f := dc) (g := ofBox (.gen (boxName mode rule [c.ty] (height (.un rule ty c))) w w 0)) h4] at h
      cases h
      simp only [Diagram.boxes, ofBox, List.map_append, List.map_cons, List.map_nil, postorder]
      refine List.rel_append ih (.cons (.un _ _ _ _ ?_) .nil)
      cases mode with
      | noType => exact .noType _
      | height => exact .height _ _ (isHeight_height _)
      | ruleOnly => exact .ruleOnly1 _ _ _
      | ruleType => exact .ruleType1 _ _ _
  | .bin rule ty l r, d, h => by
      obtain ⟨dl, a1, a2, a3, a4, _⟩ := treeAux_spec mode w l
      obtain ⟨dr, b1, b2, b3, b4, _⟩ := treeAux_spec mode w r
      have ih1 := treeAux_boxes mode w l dl a1
      have ih2 := treeAux_boxes mode w r dr b1
      have ht : tensorN [Diagram.id [], dl, dr] = tensor dl dr := by
        simp [tensorN_eq_foldr, tensor_id_nil_left, tensor_id_nil_right]
      rw [treeAux, a1, ok_bind, b1, ok_bind, ht] at h
      have hok := andThen_eq_ok (f := tensor dl dr)
        (g := ofBox (.gen (boxName mode rule [l.ty, r.ty] (height (.bin rule ty l r))) (w ++ w) w 0)) (by rw [tensor_cod, a4, b4]; rfl)
      rw [hok] at h
      have hb : d.boxes = (tensor dl dr).boxes ++ [.gen (boxName mode rule [l.ty, r.ty] (height (.bin rule ty l r))) (w ++ w) w 0] := by
        rw [← Except.ok.inj h]; simp [Diagram.boxes, ofBox]
      rw [hb, boxes_tensor, postorder]
      refine List.rel_append (List.rel_append ih1 ih2) (.cons (.bin _ _ _ _ _ ?_) .nil)
      cases mode with
      | noType => exact .noType _
      | height => exact .height _ _ (isHeight_height _)
      | ruleOnly => exact .ruleOnly2 _ _ _ _
      | ruleType =>
        have := NameOf.ruleType2 rule ty l r
        exact this

/-- **C34 (boxes).** The boxes of the diagram are those of the nodes of the tree, children before parents from left to right: the
word for a leaf and otherwise a box named according to the mode, where a layer number is the height of the node above the words. -/
theorem C34_box_names (t t' : Tree) (ht : t.resolved t.ty = .ok t') (mode : Mode) (w : Ty) (suppress : Bool) (d : GDiagram)
    (h : tree2diagram t mode w suppress = .ok (some d)) : List.Forall₂ (BoxOf mode w) (postorder t') d.boxes := by
  obtain ⟨d', h1, _⟩ := treeAux_spec mode w t'
  unfold tree2diagram at h
  simp only [ht, ok_bind, h1] at h
  cases h
  exact treeAux_boxes mode w t' d h1

/-- Non-vacuity. -/
example : ∃ t : Tree, Tree.Proper t ∧ t.leaves = ["Bob", "runs"] :=
  ⟨.bin .ba (.atom "s") (.leaf "Bob" (.atom "np")) (.leaf "runs" (.under (.atom "s") (.atom "np"))),
    .bin _ _ _ _ (.ba _ _) (by decide) (by simp [Tree.ty, Cat.NoEmpty]) (.leaf _ _ (by decide)) (.leaf _ _ (by decide)), rfl⟩

end Reader
end Lambeq
