import Verif.Parse.Declare

/-!
# The parser of whole systems

Code: /repo/core/include/bertini2/io/parsing/system_rules.hpp 82-301 (rules), 348-363 (new symbols);
/repo/core/include/bertini2/io/parsing/system_parsers.hpp 45-92 (entry points); `System::Add…`,
/repo/core/src/system/system.cpp 585-744.

The expressions are those of `Grammar.lean`, the lists of names those of `Declare.lean`.

Simplifications:
* a node made for a name is identified by the number `addr name`, be it a variable or a function (every name is
  declared at most once, so the name determines the node);
* the lists of the system hold names instead of pointers;
* an exception of the number library and a failed expectation have the same outcome, `none`: the constructor
  `System(std::string)` throws in both cases.
-/

namespace B2.Parse.SysFile

open B2 B2.Parse

/-- Names. -/
abbrev Name := List Char

/-- The keywords that start a declaration, in the order of the alternatives of `root_rule_`, system_rules.hpp 141-158. -/
inductive Kw
  | group | hom | vars | funcs | consts | params | implicit | path
  deriving DecidableEq

/-- The literal of the rule, system_rules.hpp 172-180, 197-199. -/
def Kw.word : Kw → List Char
  | .group => "variable_group".toList
  | .hom => "hom_variable_group".toList
  | .vars => "variable".toList
  | .funcs => "function".toList
  | .consts => "constant".toList
  | .params => "parameter".toList
  | .implicit => "implicit_parameter".toList
  | .path => "pathvariable".toList

/-- The order of the alternatives. -/
def allKw : List Kw := [.group, .hom, .vars, .funcs, .consts, .params, .implicit, .path]

/-- Names declared after these keywords become `Function`s (`genericfuncgp_`), the others `Variable`s. -/
def Kw.isFn : Kw → Bool
  | .funcs | .consts | .params => true
  | _ => false

/-- The types of variable groups, system.hpp `VariableGroupType`. -/
inductive GType
  | affine | homogeneous | ungrouped
  deriving DecidableEq

/-- The members of `System` that the parser fills.  `root` holds the entry nodes of the functions, by address; `none` is a
null pointer. -/
structure Sys where
  groups : List (List Name)
  homGroups : List (List Name)
  ungrouped : List Name
  timeOrder : List GType
  functions : List Name
  constants : List Name
  parameters : List Name
  implicitParams : List Name
  pathVar : Option Name
  subs : List Name
  root : ℕ → Option Node

/-- A default constructed system. -/
def Sys.empty : Sys := ⟨[], [], [], [], [], [], [], [], none, [], fun _ => none⟩

/-- The parser: the system so far, the names in `encountered_symbols_` apart from the constants, and those in
`encountered_functions_`. -/
structure St where
  sys : Sys
  syms : List Name
  fns : List Name

/-- A new parser. -/
def St.init : St := ⟨Sys.empty, [], []⟩

/-- The constants known from the start, system_rules.hpp 113-134 (`I()` is a `Float`, special_number.cpp 96-99). -/
def constTable : Table :=
  [(['p', 'i'], .special .pi), (['P', 'i'], .special .pi), (['e'], .special .e), (['E'], .special .e),
    (['i'], .float 0 1), (['I'], .float 0 1)]

/-- `encountered_symbols_` with their nodes. -/
def table (addr : Name → ℕ) (syms : List Name) : Table := syms.map (fun n => (n, Node.var (addr n))) ++ constTable

/-- What `unencountered_symbol_` excludes, system_rules.hpp 217. -/
def known (syms : List Name) : List Name := syms ++ (B2.Parse.constants ++ declarative)

/-- The semantic action of a declaration, system_rules.hpp 143-157, with `System::Add…`, system.cpp 585-744. -/
def Sys.declare (S : Sys) (k : Kw) (ns : List Name) : Sys :=
  match k with
  | .group => { S with groups := S.groups ++ [ns], timeOrder := S.timeOrder ++ [.affine] }
  | .hom => { S with homGroups := S.homGroups ++ [ns], timeOrder := S.timeOrder ++ [.homogeneous] }
  | .vars => { S with ungrouped := S.ungrouped ++ ns, timeOrder := S.timeOrder ++ ns.map fun _ => .ungrouped }
  | .funcs => { S with functions := S.functions ++ ns }
  | .consts => { S with constants := S.constants ++ ns }
  | .params => { S with parameters := S.parameters ++ ns }
  | .implicit => { S with implicitParams := S.implicitParams ++ ns }
  | .path => { S with pathVar := ns.getLast? }

/-- `MakeAndAddVariable`, `MakeAndAddFunction` for each name, system_rules.hpp 348-363, then the action. -/
def St.declare (st : St) (k : Kw) (ns : List Name) : St :=
  ⟨st.sys.declare k ns, st.syms ++ ns, if k.isFn then st.fns ++ ns else st.fns⟩

/-- The first keyword that the text starts with.  The literals are prefixes: nothing need separate them from what
follows. -/
def firstKw : List Kw → List Char → Option (Kw × List Char)
  | [], _ => none
  | k :: ks, s =>
    match eatStr k.word s with
    | some r => some (k, r)
    | none => firstKw ks s

/-- `> '=' > function_parser_ > ';'`, system_rules.hpp 231, 240-246; the function made by the root rule of the function
parser around the expression is omitted. -/
def body (T : Table) (s : List Char) : Option (Node × List Char) :=
  match eat '=' s with
  | none => none
  | some r =>
    match expr T r with
    | .ok e r' => (eat ';' r').map fun r'' => (e, r'')
    | _ => none

/-- `F->SetRoot(N)`. -/
def Sys.setRoot (S : Sys) (a : ℕ) (e : Node) : Sys := { S with root := Function.update S.root a (some e) }

/-- `subfunction_` with its action, system_rules.hpp 159, 240-246; the new function is a known symbol in its own body. -/
def St.subfunction (addr : Name → ℕ) (st : St) (n : Name) (e : Node) : St :=
  ⟨{ st.sys with subs := st.sys.subs ++ [n] }.setRoot (addr n) e, st.syms ++ [n], st.fns ++ [n]⟩

/-- The longest name of a function that the text starts with (`encountered_functions_`). -/
def longestFn (fns : List Name) (s : List Char) : Option Name :=
  (longest (fns.map fun n => (n, Node.int 0)) s).map (·.1)

/-- Outcome of one round of the loop of `root_rule_`: no alternative matches; failed expectation; a statement read. -/
inductive Step
  | stop
  | bad
  | next (st : St) (rest : List Char)

/-- One round of the loop of `root_rule_`, system_rules.hpp 141-163. -/
def stmt (addr : Name → ℕ) (st : St) (s : List Char) : Step :=
  match firstKw allKw (skip s) with
  | some (.path, r) =>
    match fresh (known st.syms) r with
    | none => .bad
    | some (n, r1) =>
      match eat ';' r1 with
      | none => .bad
      | some r2 => .next (st.declare .path [n]) r2
  | some (k, r) =>
    match B2.Parse.declare (known st.syms) r with
    | none => .bad
    | some (ns, r1) => .next (st.declare k ns) r1
  | none =>
    match fresh (known st.syms) s with
    | some (n, r) =>
      match body (table addr (st.syms ++ [n])) r with
      | none => .bad
      | some (e, r1) => .next (st.subfunction addr n e) r1
    | none =>
      match longestFn st.fns (skip s) with
      | none => .stop
      | some n =>
        match body (table addr st.syms) ((skip s).drop n.length) with
        | none => .bad
        | some (e, r1) => .next { st with sys := st.sys.setRoot (addr n) e } r1

/-- The loop of `root_rule_`; the whole text must be consumed, system_parsers.hpp 62-63, 85-88.  The test on lengths
serves termination only and always succeeds. -/
def run (addr : Name → ℕ) (st : St) (s : List Char) : Option St :=
  match stmt addr st s with
  | .bad => none
  | .stop => if skip s = [] then some st else none
  | .next st' r => if _h : r.length < s.length then run addr st' r else none
termination_by s.length

/-- `System(std::string const&)`, system_parsers.hpp 73-92; `none`: it throws. -/
def parseSystem (addr : Name → ℕ) (s : List Char) : Option Sys := (run addr .init s).map (·.sys)

/-! ## Specification: input files -/

/-- A name in a list, with white space around it. -/
structure Item where
  pre : List Char
  name : Name
  post : List Char

/-- Its text. -/
def Item.text (i : Item) : List Char := i.pre ++ (i.name ++ i.post)

/-- The text of a list of names: separated by commas. -/
def itemsText : List Item → List Char
  | [] => []
  | [i] => i.text
  | i :: is => i.text ++ ',' :: itemsText is

/-- A statement of an input file: a declaration of names, or the assignment of an expression (given by its text and the
tree that it denotes) to a name. -/
inductive Stm
  | decl (pre : List Char) (k : Kw) (items : List Item)
  | assign (pre : List Char) (n : Name) (mid : List Char) (txt : List Char) (e : Node) (post : List Char)

/-- Its text. -/
def Stm.text : Stm → List Char
  | .decl pre k items => pre ++ (k.word ++ (itemsText items ++ [';']))
  | .assign pre n mid txt _ post => pre ++ (n ++ (mid ++ '=' :: (txt ++ (post ++ [';']))))

/-- The text of a file. -/
def fileText : List Stm → List Char → List Char
  | [], w => w
  | s :: F, w => s.text ++ fileText F w

/-- The names declared after the keyword `k`, statement by statement. -/
def declared (k : Kw) (F : List Stm) : List (List Name) :=
  F.filterMap fun s => match s with
    | .decl _ k' items => if k' = k then some (items.map (·.name)) else none
    | .assign .. => none

/-- The kinds of the groups of variables in the order of the file. -/
def order (F : List Stm) : List GType :=
  F.flatMap fun s => match s with
    | .decl _ .group _ => [.affine]
    | .decl _ .hom _ => [.homogeneous]
    | .decl _ .vars items => items.map fun _ => .ungrouped
    | _ => []

/-- The expressions assigned to the name, in the order of the file. -/
def assigned (n : Name) (F : List Stm) : List Node :=
  F.filterMap fun s => match s with
    | .assign _ n' _ _ e _ => if n' = n then some e else none
    | .decl .. => none

/-- The names that statements introduce, in the order of the file, when the functions `fns` have been introduced before;
an assignment to a function introduces nothing. -/
def intro (fns : List Name) : List Stm → List Name
  | [] => []
  | .decl _ k items :: F =>
    items.map (·.name) ++ intro (if k.isFn then fns ++ items.map (·.name) else fns) F
  | .assign _ n _ _ _ _ :: F => if n ∈ fns then intro fns F else n :: intro (fns ++ [n]) F

/-- The names introduced by assignments. -/
def introSubs (fns : List Name) : List Stm → List Name
  | [] => []
  | .decl _ k items :: F => introSubs (if k.isFn then fns ++ items.map (·.name) else fns) F
  | .assign _ n _ _ _ _ :: F => if n ∈ fns then introSubs fns F else n :: introSubs (fns ++ [n]) F

/-- `S` is the system that the file describes: every list holds the names declared for it, in the order of the file; the
functions have the expressions last assigned to them. -/
structure Describes (addr : Name → ℕ) (F : List Stm) (S : Sys) : Prop where
  groups : S.groups = declared .group F
  homGroups : S.homGroups = declared .hom F
  ungrouped : S.ungrouped = (declared .vars F).flatten
  timeOrder : S.timeOrder = order F
  functions : S.functions = (declared .funcs F).flatten
  constants : S.constants = (declared .consts F).flatten
  parameters : S.parameters = (declared .params F).flatten
  implicitParams : S.implicitParams = (declared .implicit F).flatten
  pathVar : S.pathVar = (declared .path F).flatten.getLast?
  subs : S.subs = introSubs [] F
  root : ∀ n, S.root (addr n) = (assigned n F).getLast?

/-- A file that follows the syntax: lists of names are not empty (one name for a path variable), names fit the naming rules
and are not names of functions of the grammar, and the text of each expression denotes its tree (`Conv`) with the names
introduced so far, the assigned one included. -/
def Syntax (addr : Name → ℕ) (full : Bool) : List Name → List Name → List Stm → Prop
  | _, _, [] => True
  | syms, fns, .decl pre k items :: F =>
    Ws pre ∧ items ≠ [] ∧ (k = .path → items.length = 1) ∧
      (∀ i ∈ items, Ws i.pre ∧ IsName i.name ∧ Ws i.post ∧ ∀ f : Fn, i.name ≠ f.name) ∧
      Syntax addr full (syms ++ items.map (·.name)) (if k.isFn then fns ++ items.map (·.name) else fns) F
  | syms, fns, .assign pre n mid txt e post :: F =>
    Ws pre ∧ IsName n ∧ (∀ f : Fn, n ≠ f.name) ∧ Ws mid ∧ Ws post ∧
      Conv (table addr (if n ∈ fns then syms else syms ++ [n])) full false 0 txt e ∧
      Syntax addr full (if n ∈ fns then syms else syms ++ [n]) (if n ∈ fns then fns else fns ++ [n]) F

end B2.Parse.SysFile
