import Verif.Py

/-!
# Command-line interface (C108)

Models `lambeq/cli.py`: `ArgumentList` and `ArgumentListValidator` (85-158), the defaults of `prepare_parser` (161-341), `validate_args` (344-393), the modules of the pipeline (396-609) and `main`
(612-639).

Parsers, readers, rewriting, ansätze and drawing are modelled elsewhere; here they are fields of `World`. Left out: what argparse does to reject or split the command line; YAML, which is assumed to
give back the dictionary that was stored.
-/

namespace Lambeq
namespace Cli

/-- The destinations of the arguments, cli.py:161-341. -/
inductive Key
  | inputSentence | mode | inputFile | outputFormat | imageFormat | outputOptions | outputFile | outputDir | parser | tokenise | splitSentences | reader | rootCategories
  | rewriteRules | ansatz | ansatzOptions | storeArgs | loadArgs
  deriving DecidableEq

/-- Values of arguments; `opts` is a dictionary of integers, in order of insertion. -/
inductive Val
  | none
  | bool (b : Bool)
  | str (s : String)
  | strs (l : List String)
  | opts (l : List (String × Int))
  deriving DecidableEq

/-- `bool(value)` -/
def Val.truthy : Val → Bool
  | none => false
  | bool b => b
  | str s => !(s == "")
  | strs l => !l.isEmpty
  | opts l => !l.isEmpty

/-- `value in [...]` for a list of strings. -/
def Val.isIn (v : Val) (l : List String) : Bool := l.any (fun s => decide (v = str s))

/-- `argparse.Namespace` with the arguments of the CLI. -/
abbrev Args := Key → Val

/-- `setattr(args, key, value)` -/
def Args.set (a : Args) (k : Key) (v : Val) : Args := fun k' => if k' = k then v else a k'

/-! ## Lists of options -/

/-- `s.split(c)` for one character. -/
def splitOn (c : Char) : List Char → List (List Char)
  | [] => [[]]
  | x :: xs => if x = c then [] :: splitOn c xs
    else match splitOn c xs with
      | [] => [[x]]
      | w :: ws => (x :: w) :: ws

/-- `d[k] = v` for a dictionary in order of insertion. -/
def dictSet : List (String × Int) → String → Int → List (String × Int)
  | [], k, v => [(k, v)]
  | (k', v') :: r, k, v => if k' = k then (k, v) :: r else (k', v') :: dictSet r k v

/-- `d.get(k)` -/
def dictGet : List (String × Int) → String → Option Int
  | [], _ => .none
  | (k', v) :: r, k => if k' = k then some v else dictGet r k

/-- cli.py:110-112. `int` converts the value (all options of the CLI are integers), `none` for a `ValueError`. -/
def argCall (int : List Char → Option Int) (names : List String) (arg : List Char) : Except PyErr (String × Int) :=
  match splitOn '=' arg with
  | [k, v] => if String.ofList k ∈ names then match int v with
      | .none => .error .valueError
      | some n => .ok (String.ofList k, n)
    else .error .keyError
  | _ => .error .valueError

/-- cli.py:102-108 -/
def argContains (int : List Char → Option Int) (names : List String) (arg : List Char) : Except PyErr Bool :=
  match splitOn '=' arg with
  | [k, v] => .ok (decide (String.ofList k ∈ names) && (int v).isSome)
  | _ => .error .valueError

/-- cli.py:152-154 -/
def argLoop (int : List Char → Option Int) (names : List String) : List (String × Int) → List (List Char) → Except PyErr (List (String × Int))
  | d, [] => .ok d
  | d, a :: as => match argCall int names a with
    | .error e => .error e
    | .ok (k, v) => argLoop int names (dictSet d k v) as

/-- cli.py:155-157 -/
def addDefaults : List (String × Option Int) → List (String × Int) → List (String × Int)
  | [], d => d
  | (_, .none) :: r, d => addDefaults r d
  | (k, some v) :: r, d => addDefaults r (if (dictGet d k).isNone then dictSet d k v else d)

/-- cli.py:142-158 -/
def argList (int : List Char → Option Int) (choices : List (String × Option Int)) (args : List (List Char)) : Except PyErr (List (String × Int)) :=
  match argLoop int (choices.map Prod.fst) [] args with
  | .error e => .error e
  | .ok d => .ok (addDefaults choices d)

/-- cli.py:208-210 -/
def outputChoices : List (String × Option Int) := [("fig_width", .none), ("fig_height", .none), ("fontsize", .none)]
/-- cli.py:307-312 -/
def ansatzChoices : List (String × Option Int) := [("dim_n", some 2), ("dim_s", some 2), ("n_layers", some 2), ("n_single_qubit_params", some 3), ("bond_dim", some 3), ("max_order", some 3)]

/-! ## Arguments -/

/-- cli.py:166-340: the value of an argument that is not on the command line. -/
def argDefault : Args
  | .inputSentence => .str ""
  | .mode => .str "string-diagram"
  | .outputOptions => .opts []
  | .tokenise => .bool false
  | .splitSentences => .bool false
  | .ansatzOptions => .opts []
  | _ => .none

/-- `parser.parse_args()`: arguments on the command line, and defaults for the others. -/
def parseArgs (given : Key → Option Val) : Args := fun k => (given k).getD (argDefault k)

/-- cli.py:618-620 and 621-623 -/
def fill : Args → List (Key × Val) → Args
  | a, [] => a
  | a, (k, v) :: r => fill (if (a k).truthy then a else a.set k v) r

/-- cli.py:78-82 -/
def defaultValues : List (Key × Val) := [(.outputFormat, .str "text-unicode"), (.imageFormat, .str "png"), (.mode, .str "string-diagram")]

/-- cli.py:615-623; `saved` is the content of the file of `load_args`. -/
def effective (cl : Args) (saved : Option (List (Key × Val))) : Args :=
  fill (match saved with | .none => cl | some s => fill cl s) defaultValues

/-- All destinations. -/
def keys : List Key := [.inputSentence, .mode, .inputFile, .outputFormat, .imageFormat, .outputOptions, .outputFile, .outputDir, .parser, .tokenise, .splitSentences, .reader, .rootCategories,
  .rewriteRules, .ansatz, .ansatzOptions, .storeArgs, .loadArgs]

/-- cli.py:627-628: what is stored in the file. -/
def stored (a : Args) : List (Key × Val) := keys.map (fun k => (k, a.set .storeArgs .none k))

/-- `len(value)` -/
def Val.len : Val → Except PyErr Nat
  | .str s => .ok s.length
  | .strs l => .ok l.length
  | .opts l => .ok l.length
  | _ => .error .typeError

/-- cli.py:344-393 -/
def validate (a : Args) : Except PyErr Unit :=
  if a .inputSentence ≠ .str "" ∧ a .inputFile ≠ .none then .error .valueError
  else if a .outputDir = .none ∧ a .outputFile = .none ∧ (a .outputFormat).isIn ["text-ascii", "text-unicode"] = false then .error .valueError
  else if a .parser ≠ .none ∧ a .reader ≠ .none then .error .valueError
  else match (a .outputOptions).len with
    | .error e => .error e
    | .ok n =>
      if n > 0 ∧ a .outputFormat ≠ .str "image" then .error .valueError
      else if a .outputDir ≠ .none ∧ a .outputFormat ≠ .str "image" then .error .valueError
      else if a .mode = .str "ccg" ∧ [a .ansatz, a .reader, a .rewriteRules].any (fun v => decide (v ≠ .none)) = true then .error .valueError
      else if a .mode = .str "ccg" ∧ a .outputFormat = .str "image" then .error .valueError
      else if a .mode = .str "ccg" ∧ a .parser ≠ .none ∧ a .parser ≠ .str "bobcat" then .error .valueError
      else if (a .outputFormat).isIn ["text-ascii", "text-unicode", "json"] = true ∧ (a .mode).isIn ["string-diagram", "pregroups"] = true then
        if a .ansatz ≠ .none then .error .valueError
        else if a .rewriteRules ≠ .none then .error .valueError
        else if (a .reader).isIn ["spiders", "stairs", "tree"] = true then .error .valueError
        else .ok ()
      else .ok ()

/-! ## Pipeline -/

/-- A sentence given to a parser: a string, or tokens. -/
inductive Sent
  | text (s : String)
  | tokens (l : List String)
  deriving DecidableEq

/-- What the pipeline calls. `D` is the type of diagrams (of any category), `T` that of CCG trees. -/
structure World (D T : Type) where
  readFile : Val → Except PyErr String
  stdin : String
  strip : String → String
  splitSentences : String → List String
  tokensOf : String → List String
  reader : Val → List Sent → Bool → Except PyErr (List (Option D))
  /-- The second argument is `root_cats`, if it is given. -/
  parseDiagrams : Val → Option Val → List Sent → Bool → Except PyErr (List (Option D))
  parseTrees : Val → Option Val → List Sent → Bool → Except PyErr (List (Option T))
  dropTrivial : T → T
  isPregroup : D → Bool
  pregroupNF : D → Except PyErr D
  removeSwaps : D → Except PyErr D
  rewrite : Val → D → Except PyErr D
  normalForm : D → Except PyErr D
  supports : Val → String → Bool
  /-- `dim_n`, `dim_s` and the other options. -/
  ansatz : Val → Int → Int → List (String × Int) → D → Except PyErr D
  render : Bool → D → Except PyErr String
  deriv : Bool → T → String
  draw : D → Except PyErr Unit

/-- What the program does to its surroundings. -/
inductive Effect (D T : Type)
  | jsonTrees (path : Val) (ts : List T)
  | pickleTrees (path : Val) (ts : List T)
  | pickle (path : Val) (ds : List D)
  | text (path : Val) (s : String)
  | print (s : String)
  | mkdir (path : Val)
  | image (path : String) (figsize : Option (Int × Int)) (fontsize : Option Int) (d : D)
  | storeArgs (path : Val) (content : List (Key × Val))
  deriving DecidableEq

variable {D T : Type} (W : World D T)

/-- `[f(x) for x in xs]` for a function that may raise an exception. -/
def mapPy {α β : Type} (f : α → Except PyErr β) : List α → Except PyErr (List β)
  | [] => .ok []
  | x :: xs => match f x with
    | .error e => .error e
    | .ok y => match mapPy f xs with
      | .error e => .error e
      | .ok ys => .ok (y :: ys)

/-- cli.py:405-416 -/
def readText (a : Args) : Except PyErr String :=
  match a .inputSentence with
  | .str s => if s ≠ "" then .ok s
    else if a .inputFile ≠ .none then match W.readFile (a .inputFile) with
      | .error e => .error e
      | .ok t => .ok (W.strip t)
    else .ok (W.strip W.stdin)
  | _ => .error .attributeError

/-- cli.py:429-437 -/
def sentences (a : Args) (text : String) : List Sent :=
  let s := if (a .splitSentences).truthy then W.splitSentences text else (splitOn '\n' text.toList).map String.ofList
  if (a .tokenise).truthy then s.map (fun x => .tokens (W.tokensOf x)) else s.map .text

/-- cli.py:445-450: the parser and the root categories it is made with. -/
def parserOf (a : Args) : Val × Option Val :=
  if a .parser ≠ .none then (a .parser, .none) else (.str "bobcat", some (a .rootCategories))

/-- cli.py:426-468 for diagrams. -/
def parseDiagrams (a : Args) (text : String) : Except PyErr (List D) :=
  let ss := sentences W a text
  let tok := (a .tokenise).truthy
  if a .reader ≠ .none then match W.reader (a .reader) ss tok with
    | .error e => .error e
    | .ok ds => .ok (ds.filterMap (fun d => d))
  else match W.parseDiagrams (parserOf a).1 (parserOf a).2 ss tok with
    | .error e => .error e
    | .ok ds =>
      if a .mode = .str "pregroups" then
        mapPy (fun d => match W.pregroupNF d with | .error e => .error e | .ok d => W.removeSwaps d) (ds.filterMap (fun d => d))
      else .ok (ds.filterMap (fun d => d))

/-- cli.py:452-456; a reader in this mode is excluded by `validate_args`. -/
def parseTrees (a : Args) (text : String) : Except PyErr (List T) :=
  match W.parseTrees (parserOf a).1 (parserOf a).2 (sentences W a text) (a .tokenise).truthy with
  | .error e => .error e
  | .ok ts => .ok ((ts.filterMap (fun t => t)).map W.dropTrivial)

/-- cli.py:471-481 -/
def rewriteModule (a : Args) (ds : List D) : Except PyErr (List D) :=
  if a .rewriteRules = .none then .ok ds
  else mapPy (fun d => match W.rewrite (a .rewriteRules) d with | .error e => .error e | .ok d => W.normalForm d) ds

/-- cli.py:484-513 -/
def ansatzModule (a : Args) (ds : List D) : Except PyErr (List D) :=
  if a .ansatz = .none then .ok ds
  else match a .ansatzOptions with
    | .opts o => match dictGet o "dim_n" with
      | .none => .error .keyError
      | some n => match dictGet o "dim_s" with
        | .none => .error .keyError
        | some s => mapPy (W.ansatz (a .ansatz) n s (o.filter (fun kv => W.supports (a .ansatz) kv.1))) ds
    | _ => .error .typeError

/-- cli.py:523-531 and 569-573: text goes to the file or to standard output. -/
def putText (a : Args) (lines : List String) : List (Effect D T) :=
  if a .outputFile ≠ .none then [.text (a .outputFile) ("\n".intercalate lines)] else [.print ("\n".intercalate lines)]

/-- cli.py:516-535 -/
def saveTrees (a : Args) (ts : List T) : List (Effect D T) :=
  if a .outputFormat = .str "json" then [.jsonTrees (a .outputFile) ts]
  else if (a .outputFormat).isIn ["text-ascii", "text-unicode"] = true then putText a (ts.map (W.deriv (decide (a .outputFormat = .str "text-ascii"))))
  else if a .outputFormat = .str "pickle" then (if a .outputFile ≠ .none then [.pickleTrees (a .outputFile) ts] else [])
  else []

/-- cli.py:543-552: one diagram. -/
def textPrep (d : D) : Except PyErr D :=
  if W.isPregroup d = true then .ok d
  else match W.pregroupNF d with
    | .error e => .error e
    | .ok d' => if W.isPregroup d' = true then .ok d' else .error .valueError

/-- `s.zfill(w)`; signs are left out. -/
def zfill (s : List Char) (w : Nat) : List Char := List.replicate (w - s.length) '0' ++ s

/-- `os.path.join(d, f)` for a relative `f`. -/
def pathJoin (d f : List Char) : List Char := if d = [] ∨ d.getLast? = some '/' then d ++ f else d ++ '/' :: f

/-- `os.path.splitext(p)` -/
def splitext (p : List Char) : List Char × List Char :=
  let ext := p.reverse.takeWhile (fun c => c ≠ '.' ∧ c ≠ '/')
  match p.reverse.dropWhile (fun c => c ≠ '.' ∧ c ≠ '/') with
  | '.' :: base => if (base.takeWhile (· ≠ '/')).any (· ≠ '.') = true then (base.reverse, '.' :: ext.reverse) else (p, [])
  | _ => (p, [])

/-- cli.py:72-76 -/
def imageTypes : List (List Char) := ["png".toList, "pdf".toList, "jpeg".toList, "jpg".toList, "eps".toList, "pgf".toList, "ps".toList, "raw".toList, "rgba".toList, "svg".toList, "svgz".toList,
  "tif".toList, "tiff".toList]

/-- cli.py:588-591: image number `i` (from 0) of `n`. -/
def imageName (fmt : List Char) (n i : Nat) : List Char :=
  'd' :: 'i' :: 'a' :: 'g' :: 'r' :: 'a' :: 'm' :: '_' :: (zfill (Nat.toDigits 10 (i + 1)) (Nat.toDigits 10 n).length ++ '.' :: fmt)

/-- cli.py:593-596 -/
def singlePath (file fmt : List Char) : List Char :=
  if (splitext file).2 ∉ imageTypes then (splitext file).1 ++ '.' :: fmt else file

/-- The characters of an argument that is a string. -/
def Val.chars : Val → List Char
  | .str s => s.toList
  | _ => []

/-- cli.py:587-596 -/
def imagePath (a : Args) (n i : Nat) : String :=
  String.ofList (if a .outputDir ≠ .none then pathJoin (a .outputDir).chars (imageName (a .imageFormat).chars n i) else singlePath (a .outputFile).chars (a .imageFormat).chars)

/-- cli.py:598-605: `figsize` and `fontsize`. -/
def drawOptions (o : Val) (n : Nat) : Option (Int × Int) × Option Int :=
  match o with
  | .opts o => ((match dictGet o "fig_width", dictGet o "fig_height" with
      | some w, some h => if n = 1 then some (w, h) else .none
      | _, _ => .none), dictGet o "fontsize")
  | _ => (.none, .none)

/-- cli.py:607: the first attempt. -/
def drawNormal (d : D) : Except PyErr D :=
  match W.normalForm d with
  | .error e => .error e
  | .ok d' => match W.draw d' with
    | .error e => .error e
    | .ok _ => .ok d'

/-- cli.py:606-609: the diagram that is drawn. Left out: a file half written by the first attempt. -/
def drawn (d : D) : Except PyErr D :=
  match drawNormal W d with
  | .ok d' => .ok d'
  | .error e => if e = .valueError ∨ e = .notImplementedError then match W.draw d with
      | .error e => .error e
      | .ok _ => .ok d
    else .error e

/-- cli.py:586-609; the images drawn before an exception stay. -/
def drawAll (a : Args) (n : Nat) : Nat → List D → List (Effect D T) × Except PyErr Unit
  | _, [] => ([], .ok ())
  | i, d :: ds => match drawn W d with
    | .error e => ([], .error e)
    | .ok d' =>
      let r := drawAll a n (i + 1) ds
      (.image (imagePath a n i) (drawOptions (a .outputOptions) n).1 (drawOptions (a .outputOptions) n).2 d' :: r.1, r.2)

/-- cli.py:538-609 -/
def saveDiagrams (a : Args) (ds : List D) : List (Effect D T) × Except PyErr Unit :=
  if a .outputFormat = .str "json" then ([], .error .notImplementedError)
  else if (a .outputFormat).isIn ["text-ascii", "text-unicode"] = true then
    match mapPy (textPrep W) ds with
    | .error e => ([], .error e)
    | .ok ds => match mapPy (W.render (decide (a .outputFormat = .str "text-ascii"))) ds with
      | .error e => ([], .error e)
      | .ok ls => (putText a ls, .ok ())
  else if a .outputFormat = .str "pickle" then (if a .outputFile ≠ .none then [.pickle (a .outputFile) ds] else [], .ok ())
  else if a .outputFormat = .str "image" then
    if a .outputDir ≠ .none then
      let r := drawAll W a ds.length 0 ds
      (.mkdir (a .outputDir) :: r.1, r.2)
    else if ds.length > 1 then ([], .error .valueError)
    else drawAll W a ds.length 0 ds
  else ([], .ok ())

/-- cli.py:629-639, for diagrams. -/
def diagrams (a : Args) : Except PyErr (List D) :=
  match readText W a with
  | .error e => .error e
  | .ok t => match parseDiagrams W a t with
    | .error e => .error e
    | .ok ds => match rewriteModule W a ds with
      | .error e => .error e
      | .ok ds => ansatzModule W a ds

/-- cli.py:629-639; in mode `ccg`, rewriting and ansatz are excluded by `validate_args`. -/
def pipeline (a : Args) : List (Effect D T) × Except PyErr Unit :=
  if (a .mode).isIn ["string-diagram", "pregroups"] = true then
    match diagrams W a with
    | .error e => ([], .error e)
    | .ok ds => saveDiagrams W a ds
  else match readText W a with
    | .error e => ([], .error e)
    | .ok t => match parseTrees W a t with
      | .error e => ([], .error e)
      | .ok ts => (saveTrees W a ts, .ok ())

/-- cli.py:612-639: the effects of the program, and how it ends. -/
def main (cl : Args) (saved : Option (List (Key × Val))) : List (Effect D T) × Except PyErr Unit :=
  let a := effective cl saved
  match validate a with
  | .error e => ([], .error e)
  | .ok () =>
    if a .storeArgs ≠ .none then
      let r := pipeline W (a.set .storeArgs .none)
      (.storeArgs (a .storeArgs) (stored a) :: r.1, r.2)
    else pipeline W a

end Cli
end Lambeq
