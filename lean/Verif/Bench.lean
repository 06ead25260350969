import Verif.Effects
/-! Model of the problem generators /repo/src/tarski/benchmarks/blocksworld.py and
/repo/src/tarski/benchmarks/counters.py. -/
namespace Tarski

/-! ### Blocksworld -/

/-- The loop of `generate_random_bw_pattern` (blocksworld.py:178-184). The set `clearplaces` is a list without
repetitions; `pick k` is the number drawn by the `k`-th call of `random.choice`, reduced to the length of the list, so
that every element can be drawn whatever the order in which the set is listed. -/
def bwLoop (pick : Nat → Nat) : Nat → List String → List String → List (String × String) →
    List String × List (String × String)
  | _, [], clear, pat => (clear, pat)
  | k, b :: bs, clear, pat =>
    let target := clear.getD (pick k % clear.length) ""
    let clear' := if target ≠ "table" then clear.filter (fun c => decide (c ≠ target)) else clear
    bwLoop pick (k + 1) bs (if b ∈ clear' then clear' else clear' ++ [b]) (pat ++ [(b, target)])

/-- Models `generate_random_bw_pattern` (blocksworld.py:170-185) on a language with the given names of constants:
the set of clear places and the list of pairs. `shuffle` is the permutation applied by `random.shuffle`. -/
def bwPattern (consts : List String) (shuffle : List String → List String) (pick : Nat → Nat) :
    List String × List (String × String) :=
  bwLoop pick 0 (shuffle (consts.filter (fun x => decide (x ≠ "table")))) ["table"] []

/-- Models `compute_clear_from_pattern` (blocksworld.py:188-192). -/
def bwClear (consts : List String) (locations : List (String × String)) : List String :=
  let cl := consts.filter (fun x => decide (x ∉ locations.map (·.2)))
  if "table" ∈ cl then cl else cl ++ ["table"]

/-- `[f"b{k}" for k in range(1, nblocks + 1)]` (blocksworld.py:28, 45). -/
def blockNames (n : Nat) : List String := (List.range n).map (fun k => "b" ++ toString (k + 1))

/-- The part of the language of `generate_strips_bw_language` (blocksworld.py:18-29) that models consult; the only sort
used is `object`. -/
def bwStripsLang (blocks : List String) : MLang where
  psorts p := if p = "on" then ["object", "object"] else if p = "handempty" then [] else ["object"]
  fsorts _ := []
  isSub a b := a == b
  contains s n := s == "object" && blocks.any (fun b => decide (n = .str b))
  interval _ := false

/-- `lang.get(x)` (fol.py:415-437) for a constant of the given sort. -/
def getConst (consts : List (String × String)) (x : String) : Except Err Const :=
  match consts.find? (fun c => c.1 == x) with
  | some c => .ok ⟨.str c.1, c.2⟩
  | none => .error .language

/-- Models lines 58-62 of blocksworld.py: one iteration of the loop over the locations. -/
def bwAddLoc (L : MLang) (consts : List (String × String)) (m : MState) (xy : String × String) : Except Err MState :=
  match getConst consts xy.1 with
  | .error e => .error e
  | .ok cx =>
    if xy.2 = "table" then raising (m.add L (.user "ontable") [.const cx])
    else match getConst consts xy.2 with
      | .error e => .error e
      | .ok cy => raising (m.add L (.user "on") [.const cx, .const cy])

/-- Models lines 63-65 of blocksworld.py. -/
def bwAddClear (L : MLang) (consts : List (String × String)) (m : MState) (x : String) : Except Err MState :=
  if x = "table" then .ok m
  else match getConst consts x with
    | .error e => .error e
    | .ok cx => raising (m.add L (.user "clear") [.const cx])

/-- Models the initial state built in lines 56-66 of blocksworld.py. -/
def bwStripsInit (blocks : List String) (cl : List String) (locs : List (String × String)) : Except Err MState :=
  let L := bwStripsLang blocks
  let consts := blocks.map (fun b => (b, "object"))
  match seqApply (bwAddLoc L consts) MState.empty locs with
  | .error e => .error e
  | .ok m => match seqApply (bwAddClear L consts) m cl with
    | .error e => .error e
    | .ok m => raising (m.add L (.user "handempty") [])

/-- Models one iteration of the loop in lines 71-75 of blocksworld.py. -/
def bwGoalAtom (consts : List (String × String)) (xy : String × String) : Except Err Formula :=
  match getConst consts xy.1 with
  | .error e => .error e
  | .ok cx =>
    if xy.2 = "table" then .ok (.atom (.user "ontable") [.const cx.name cx.sort])
    else match getConst consts xy.2 with
      | .error e => .error e
      | .ok cy => .ok (.atom (.user "on") [.const cx.name cx.sort, .const cy.name cy.sort])

/-- A list comprehension whose body may raise. -/
def mapExcept {α β} (f : α → Except Err β) : List α → Except Err (List β)
  | [] => .ok []
  | a :: l => match f a with
    | .error e => .error e
    | .ok b => match mapExcept f l with
      | .error e => .error e
      | .ok bs => .ok (b :: bs)

/-- Models the goal built in lines 68-76 of blocksworld.py. -/
def bwStripsGoal (blocks : List String) (locs : List (String × String)) : Except Err Formula :=
  match mapExcept (bwGoalAtom (blocks.map (fun b => (b, "object")))) locs with
  | .error e => .error e
  | .ok fs => .ok (land fs true)

/-- `x`, `y` of lines 78-79 of blocksworld.py. -/
def bwX : Var := ⟨"x", "object"⟩
def bwY : Var := ⟨"y", "object"⟩

/-- An atom over variables. -/
def bwAtom (p : String) (vs : List Var) : Formula := .atom (.user p) (vs.map .var)
/-- `fs.AddEffect(...)` -/
def bwAdd (p : String) (vs : List Var) : Effect := .add .top (.user p) (vs.map .var)
/-- `fs.DelEffect(...)` -/
def bwDel (p : String) (vs : List Var) : Effect := .del .top (.user p) (vs.map .var)

/-- blocksworld.py:81-86 -/
def bwPickUp : Schema :=
  ⟨[bwX], land [land [bwAtom "clear" [bwX], bwAtom "ontable" [bwX]], bwAtom "handempty" []],
   [bwDel "ontable" [bwX], bwDel "clear" [bwX], bwDel "handempty" [], bwAdd "holding" [bwX]]⟩

/-- blocksworld.py:88-93 -/
def bwPutDown : Schema :=
  ⟨[bwX], bwAtom "holding" [bwX],
   [bwAdd "ontable" [bwX], bwAdd "clear" [bwX], bwAdd "handempty" [], bwDel "holding" [bwX]]⟩

/-- blocksworld.py:95-106 -/
def bwUnstack : Schema :=
  ⟨[bwX, bwY], land [land [bwAtom "on" [bwX, bwY], bwAtom "clear" [bwX]], bwAtom "handempty" []],
   [bwDel "on" [bwX, bwY], bwAdd "clear" [bwY], bwDel "clear" [bwX], bwDel "handempty" [], bwAdd "holding" [bwX]]⟩

/-- blocksworld.py:108-122 -/
def bwStack (useInequalities : Bool) : Schema :=
  ⟨[bwX, bwY],
   if useInequalities then
     land [land [bwAtom "holding" [bwX], bwAtom "clear" [bwY]], .atom (.cmp .ne) [.var bwX, .var bwY]]
   else land [bwAtom "holding" [bwX], bwAtom "clear" [bwY]],
   [bwAdd "on" [bwX, bwY], bwDel "clear" [bwY], bwAdd "clear" [bwX], bwAdd "handempty" [], bwDel "holding" [bwX]]⟩

/-- What a problem consists of, as far as executing plans is concerned. -/
structure BenchProblem where
  lang : MLang
  init : MState
  goal : Formula
  actions : List (String × Schema)

/-- Models `generate_strips_blocksworld_problem` (blocksworld.py:49-124); the two permutations and the two sequences of
numbers are those drawn for the initial state and for the goal. -/
def bwStripsProblem (n : Nat) (useInequalities : Bool) (sh1 : List String → List String) (pick1 : Nat → Nat)
    (sh2 : List String → List String) (pick2 : Nat → Nat) : Except Err BenchProblem :=
  let blocks := blockNames n
  let p1 := bwPattern blocks sh1 pick1
  let p2 := bwPattern blocks sh2 pick2
  match bwStripsInit blocks p1.1 p1.2 with
  | .error e => .error e
  | .ok m => match bwStripsGoal blocks p2.2 with
    | .error e => .error e
    | .ok g => .ok ⟨bwStripsLang blocks, m, g,
        [("pick-up", bwPickUp), ("put-down", bwPutDown), ("unstack", bwUnstack), ("stack", bwStack useInequalities)]⟩

/-! ### Functional blocksworld -/

/-- The part of the language of `generate_fstrips_bw_language` (blocksworld.py:32-46) that models consult: `block` is a
subsort of `place`, and `place` of `object`. -/
def bwFunLang (blocks : List String) : MLang where
  psorts _ := ["place"]
  fsorts _ := ["block", "place"]
  isSub a b := a == b || b == "object" || (a == "block" && b == "place")
  contains s n := blocks.any (fun b => decide (n = .str b)) || (s != "block" && decide (n = .str "table"))
  interval _ := false

/-- The constants of that language (blocksworld.py:44-45). -/
def bwFunConsts (blocks : List String) : List (String × String) :=
  ("table", "place") :: blocks.map (fun b => (b, "block"))

/-- Models lines 142-143 of blocksworld.py. The constructor of `loc(x)` raises if `x` is not a block
(terms.py:176-184). -/
def bwSetLoc (blocks : List String) (m : MState) (xy : String × String) : Except Err MState :=
  match getConst (bwFunConsts blocks) xy.1 with
  | .error e => .error e
  | .ok cx =>
    if (bwFunLang blocks).isSub cx.sort "block" = false then .error .sortMismatch
    else match getConst (bwFunConsts blocks) xy.2 with
      | .error e => .error e
      | .ok cy => raising (m.set (bwFunLang blocks) "loc" false [.const cx] (.const cy))

/-- Models lines 144-145 of blocksworld.py. -/
def bwSetClear (blocks : List String) (m : MState) (x : String) : Except Err MState :=
  match getConst (bwFunConsts blocks) x with
  | .error e => .error e
  | .ok cx => raising (m.add (bwFunLang blocks) (.user "clear") [.const cx])

/-- Models one conjunct of line 155 of blocksworld.py, `loc(lang.get(x)) == lang.get(y)`. -/
def bwFunGoalAtom (blocks : List String) (xy : String × String) : Except Err Formula :=
  match getConst (bwFunConsts blocks) xy.1 with
  | .error e => .error e
  | .ok cx =>
    if (bwFunLang blocks).isSub cx.sort "block" = false then .error .sortMismatch
    else match getConst (bwFunConsts blocks) xy.2 with
      | .error e => .error e
      | .ok cy => .ok (.atom (.cmp .eq) [.app "loc" [.const cx.name cx.sort], .const cy.name cy.sort])

/-- The variables of lines 158-159 of blocksworld.py. -/
def bwFX : Var := ⟨"x", "block"⟩
def bwFY : Var := ⟨"y", "place"⟩

/-- The action `move` (blocksworld.py:161-166). -/
def bwMove : Schema :=
  ⟨[bwFX, bwFY],
   land [.atom (.cmp .ne) [.var bwFX, .var bwFY], .atom (.cmp .ne) [.app "loc" [.var bwFX], .var bwFY],
     .atom (.user "clear") [.var bwFX], .atom (.user "clear") [.var bwFY]],
   [.assign .top "loc" [.var bwFX] (.var bwFY),
    .add .top (.user "clear") [.app "loc" [.var bwFX]],
    .del (.atom (.cmp .ne) [.var bwFY, .const (.str "table") "place"]) (.user "clear") [.var bwFY]]⟩

/-- A configuration given by the user, or the random draws for one (blocksworld.py:133-140, 148-153). -/
inductive BWSource where
  | given (locs : List (String × String))
  | random (shuffle : List String → List String) (pick : Nat → Nat)

/-- Clear places and locations of the initial state (blocksworld.py:133-140); only the length of a configuration given by
the user is checked. The constants of the language are the table and the blocks. -/
def BWSource.pattern (blocks : List String) : BWSource → Except Err (List String × List (String × String))
  | .given locs => if locs.length ≠ blocks.length then .error .value else .ok (bwClear ("table" :: blocks) locs, locs)
  | .random sh pick => .ok (bwPattern ("table" :: blocks) sh pick)

/-- Models `generate_fstrips_blocksworld_problem` (blocksworld.py:127-167). -/
def bwFunProblem (n : Nat) (init goal : BWSource) : Except Err BenchProblem :=
  let blocks := blockNames n
  match init.pattern blocks with
  | .error e => .error e
  | .ok (cl, locs) =>
    match seqApply (bwSetLoc blocks) MState.empty locs with
    | .error e => .error e
    | .ok m => match seqApply (bwSetClear blocks) m cl with
      | .error e => .error e
      | .ok m => match goal.pattern blocks with
        | .error e => .error e
        | .ok (_, glocs) => match mapExcept (bwFunGoalAtom blocks) glocs with
          | .error e => .error e
          | .ok fs => .ok ⟨bwFunLang blocks, m, land fs true, [("move", bwMove)]⟩

/-! ### Counters -/

/-- `[f"c{k}" for k in range(1, ncounters + 1)]` (counters.py:23). -/
def counterNames (n : Nat) : List String := (List.range n).map (fun k => "c" ++ toString (k + 1))

/-- The part of the language of `generate_fstrips_counters_language` (counters.py:12-24) that models consult: `val` is an
interval below `Integer`, which is below `Real`. -/
def countersLang (names : List String) (ub : Int) : MLang where
  psorts _ := []
  fsorts f := if f = "max_int" then ["val"] else ["counter", "val"]
  isSub a b := a == b || b == "object" || (a == "val" && (b == "Integer" || b == "Real")) || (a == "Integer" && b == "Real")
  contains s n := match n with
    | .int k => s == "val" && decide (0 ≤ k ∧ k ≤ ub)
    | .str c => s == "counter" && names.contains c
    | .pyNone => false
  interval s := s == "val" || s == "Integer" || s == "Real"

/-- The variable `c` (counters.py:41). -/
def counterC : Var := ⟨"c", "counter"⟩

/-- counters.py:43; the literal `1` is cast to the sort of `value(c)` (ops.py:27, theories.py:138-140). -/
def counterInc : Schema :=
  ⟨[counterC], .atom (.cmp .lt) [.app "value" [.var counterC], .app "max_int" []],
   [.assign .top "value" [.var counterC] (.app "+" [.app "value" [.var counterC], .const (.int 1) "val"])]⟩

/-- counters.py:45 -/
def counterDec : Schema :=
  ⟨[counterC], .atom (.cmp .gt) [.app "value" [.var counterC], .const (.int 0) "val"],
   [.assign .top "value" [.var counterC] (.app "-" [.app "value" [.var counterC], .const (.int 1) "val"])]⟩

/-- `value(c)` for a counter. -/
def counterValue (c : String) : Term := .app "value" [.const (.str c) "counter"]

/-- `[value(c1) < value(c2) for c1, c2 in zip(counters, counters[1:])]` (counters.py:38). -/
def counterGoal (counters : List String) : List Formula :=
  (counters.zip counters.tail).map (fun p => .atom (.cmp .lt) [counterValue p.1, counterValue p.2])

/-- Models `generate_fstrips_counters_problem` (counters.py:27-51). `sorted` is the result of sorting the names in
line 33. An upper bound that is not positive makes `lang.interval` raise SemanticError (fol.py:176-177). -/
def countersProblem (n : Nat) (upper : Option Int) (sorted : List String → List String) : Except Err BenchProblem :=
  let ub : Int := upper.getD (n * 2)
  if ub ≤ 0 then .error .semantic
  else
    let names := counterNames n
    let L := countersLang names ub
    let counters := sorted names
    match raising (MState.empty.set L "max_int" false [] (.lit (.int ub))) with
    | .error e => .error e
    | .ok m => match seqApply (fun m c => raising (m.set L "value" false [.const ⟨.str c, "counter"⟩] (.lit (.int 0)))) m counters with
      | .error e => .error e
      | .ok m => .ok ⟨L, m, land (counterGoal counters) true, [("increment", counterInc), ("decrement", counterDec)]⟩

end Tarski
