import Verif.Ccg.Deriv

/-!
# What a printed derivation looks like (specification for C109)

`picture` says for each line of the drawing what it contains, without any history of lines that have been drawn before; `outline` is the list of the nodes in reading order, each with the way that leads to it.
-/

namespace Lambeq
namespace Deriv

mutual
/-- How wide a tree is drawn: children side by side with gaps of `sp`, unless the type is wider. -/
def width (sp : Nat) (str : Cat → List Char) : CTree → Nat
  | .node tx r ty h cs => if r = .lexical then max (str ty).length (CTree.node tx r ty h cs).text.toList.length
    else max (widths sp str cs) (str ty).length
def widths (sp : Nat) (str : Cat → List Char) : List CTree → Nat
  | [] => 0
  | [c] => width sp str c
  | c :: c' :: cs => width sp str c + sp + widths sp str (c' :: cs)
end

mutual
/-- The number of rules applied on the longest way to a word. -/
def depth : CTree → Nat
  | .node _ r _ _ cs => if r = .lexical then 0 else depths cs + 1
def depths : List CTree → Nat
  | [] => 0
  | c :: cs => max (depth c) (depths cs)
end

/-- Line `i` of blocks side by side: from each block its line `i`, or blanks below its end, with gaps between. -/
def rowLine (sp : Nat) (i : Nat) : List (Nat × List (List Char)) → List Char
  | [] => []
  | [b] => b.2.getD i (blanks b.1)
  | b :: b' :: bs => b.2.getD i (blanks b.1) ++ blanks sp ++ rowLine sp i (b' :: bs)

/-- The name of the rule at a node, nothing if it has none. -/
def symOf (r : Rule) : List Char := match r.symbol with
  | .ok s => s
  | .error _ => []

mutual
/-- A word: the text, a heavy line, the type, all centred. Another node: its children side by side, top lines level; the rule line with the symbol at its right end; the type, centred. -/
def picture (K : CharSet) (sp : Nat) (str : Cat → List Char) : CTree → List (List Char)
  | .node tx r ty h cs =>
    let w := width sp str (.node tx r ty h cs)
    if r = .lexical then [center (CTree.node tx r ty h cs).text.toList w, List.replicate w K.heavy, center (str ty) w]
    else (List.range (3 + 2 * depths cs)).map (fun i => center (rowLine sp i (pictures K sp str cs)) w)
      ++ [List.replicate (w - (symOf r).length) K.line ++ symOf r, center (str ty) w]
def pictures (K : CharSet) (sp : Nat) (str : Cat → List Char) : List CTree → List (Nat × List (List Char))
  | [] => []
  | c :: cs => (width sp str c, picture K sp str c) :: pictures K sp str cs
end

mutual
/-- Each node that is no word has children, and a rule with a symbol. -/
def Printable : CTree → Prop
  | .node _ r _ _ cs => r = .lexical ∨ r ≠ .unknown ∧ cs ≠ [] ∧ Printables cs
def Printables : List CTree → Prop
  | [] => True
  | c :: cs => Printable c ∧ Printables cs
end

mutual
/-- ... and no symbol is wider than the node. -/
def Fits (sp : Nat) (str : Cat → List Char) : CTree → Prop
  | .node tx r ty h cs => r = .lexical ∨ r ≠ .unknown ∧ cs ≠ [] ∧ (symOf r).length ≤ width sp str (.node tx r ty h cs) ∧ Fitss sp str cs
def Fitss (sp : Nat) (str : Cat → List Char) : List CTree → Prop
  | [] => True
  | c :: cs => Fits sp str c ∧ Fitss sp str cs
end

mutual
/-- Each node that is no word has two children or more, and a rule with a symbol; types are not empty. -/
def Branching (str : Cat → List Char) : CTree → Prop
  | .node _ r ty _ cs => str ty ≠ [] ∧ (r = .lexical ∨ r ≠ .unknown ∧ 2 ≤ cs.length ∧ Branchings str cs)
def Branchings (str : Cat → List Char) : List CTree → Prop
  | [] => True
  | c :: cs => Branching str c ∧ Branchings str cs
end

mutual
/-- The texts of the words, in order. -/
def wordsOf : CTree → List (List Char)
  | .node tx r ty h cs => if r = .lexical then [(CTree.node tx r ty h cs).text.toList] else wordsOfs cs
def wordsOfs : List CTree → List (List Char)
  | [] => []
  | c :: cs => wordsOf c ++ wordsOfs cs
end

/-- What is left without blanks. -/
def inked (s : List Char) : List Char := s.filter (fun c => c ≠ ' ')

mutual
/-- All nodes in reading order; for each one, from the root on, whether one goes to a last child. -/
def outline (way : List Bool) : CTree → List (List Bool × CTree)
  | .node tx r ty h cs => (way, .node tx r ty h cs) :: outlines way cs
def outlines (way : List Bool) : List CTree → List (List Bool × CTree)
  | [] => []
  | c :: cs => outline (way ++ [cs.isEmpty]) c ++ outlines way cs
end

/-- A bar below each node that has siblings to come, then the branch itself. -/
def branches (K : CharSet) : List Bool → List Char
  | [] => []
  | [l] => [if l = true then K.corner else K.joint]
  | l :: l' :: ls => (if l = true then ' ' else K.bar) :: ' ' :: branches K (l' :: ls)

def isAscii (s : List Char) : Prop := ∀ c ∈ s, c.toNat < 128

mutual
/-- Words and types are in ASCII, and the rules are none of the generalised ones. -/
def AsciiTree (str : Cat → List Char) : CTree → Prop
  | .node tx r ty h cs => isAscii (str ty) ∧ (r = .lexical ∧ isAscii (CTree.node tx r ty h cs).text.toList
      ∨ r ≠ .lexical ∧ r ≠ .gfc ∧ r ≠ .gbc ∧ r ≠ .gfx ∧ r ≠ .gbx ∧ AsciiTrees str cs)
def AsciiTrees (str : Cat → List Char) : List CTree → Prop
  | [] => True
  | c :: cs => AsciiTree str c ∧ AsciiTrees str cs
end

end Deriv
end Lambeq
