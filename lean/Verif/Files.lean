import Verif.AspText
/-! Model of what is done with files: /repo/src/tarski/utils/command.py, /repo/src/tarski/io/utils.py, and the temporary files of
`run_clingo` (/repo/src/tarski/reachability/clingo_wrapper.py:32-62) and `_solve_lp` (/repo/src/tarski/grounding/lp_grounding.py:68-80).

Text is assumed to have the line feed as its only line boundary. The programs that are executed write to their outputs only. -/
namespace Tarski

/-- What is found under a name: a file with its text, or a directory. -/
inductive FEntry where
  | file (content : AStr)
  | dir
deriving DecidableEq

/-- The files and directories, by name. -/
abbrev FileSys := AStr → Option FEntry

/-- The files after `name` has been written, or removed. -/
def fsPut (fs : FileSys) (name : AStr) (e : Option FEntry) : FileSys := fun q => if q = name then e else fs q

/-! ### utils/command.py -/

/-- The lines that iteration over an open text file yields, each with its line feed if it has one. -/
def iterLines : AStr → List AStr
  | [] => []
  | c :: cs => if c = '\n' then [c] :: iterLines cs else match iterLines cs with
    | [] => [[c]]
    | l :: ls => (c :: l) :: ls

/-- Models `count_file_lines` (command.py:7-13): `none` for the exception of a missing file. -/
def countFileLines (fs : FileSys) (name : AStr) : Option Nat :=
  match fs name with
  | some (.file c) => some ((iterLines c).foldl (fun i _ => i + 1) 0)
  | _ => none

/-- Models `read_file` (command.py:21-25). -/
def readFile (fs : FileSys) (name : AStr) : Option (List AStr) :=
  match fs name with
  | some (.file c) => some ((iterLines c).map (pyRstrip ['\n']))
  | _ => none

/-- Models `silentremove` (command.py:59-64): `false` stands for an exception. Directories cannot be removed. -/
def silentRemove (fs : FileSys) (name : AStr) : FileSys × Bool :=
  match fs name with
  | none => (fs, true)
  | some (.file _) => (fsPut fs name none, true)
  | some .dir => (fs, false)

/-- A run of an external command: the return code and what it writes on its standard and error output. -/
structure CmdRun where
  retcode : Int
  out : AStr
  err : AStr

/-- Models `execute` (command.py:28-56) with both outputs redirected to files: an empty error log is deleted. -/
def executeCmd (fs : FileSys) (run : CmdRun) (stdout stderr : AStr) : FileSys × Int :=
  let fs1 := fsPut (fsPut fs stdout (some (.file run.out))) stderr (some (.file run.err))
  (if run.err = [] then fsPut fs1 stderr none else fs1, run.retcode)

/-! ### clingo_wrapper.py and lp_grounding.py -/

/-- The exceptions of the grounding by logic programs. -/
inductive RunErr where
  | commandNotFound
  | outOfMemory
  | outOfTime
  | externalCommand
  | reading (e : Err)
  | osError
  | unsolvable
deriving DecidableEq

/-- `w in s` -/
def hasSubstring (w : AStr) : AStr → Bool
  | [] => w.isPrefixOf []
  | c :: cs => w.isPrefixOf (c :: cs) || hasSubstring w cs

/-- The text of the error log, if there is one (clingo_wrapper.py:41, 53-55). -/
def errorLog (fs : FileSys) (name : AStr) : AStr :=
  match fs name with
  | some (.file c) => c
  | _ => []

/-- The lines of the open file `name`. -/
def fileLines (fs : FileSys) (name : AStr) : Option (List AStr) :=
  match fs name with
  | some (.file c) => some (iterLines c)
  | _ => none

/-- The names that `tempfile` chooses for the theory, the model and the error log (clingo_wrapper.py:35, 42-43). -/
structure TempNames where
  theory : AStr
  model : AStr
  log : AStr

/-- Models `run_clingo` (clingo_wrapper.py:32-62): `found` is whether there is a gringo (clingo_wrapper.py:14-29), and `solver` how it
behaves on a theory. -/
def runClingo (fs : FileSys) (found : Bool) (names : TempNames) (solver : AStr → CmdRun) (theory : AStr) :
    FileSys × Except RunErr (AStr × AStr) :=
  if !found then (fs, .error .commandNotFound) else
  let fs1 := fsPut fs names.theory (some (.file theory))
  let fs2 := fsPut (fsPut fs1 names.model (some (.file []))) names.log (some (.file []))
  match executeCmd fs2 (solver theory) names.model names.log with
  | (fs3, ret) =>
    if ret = 0 then (fs3, .ok (names.model, names.theory)) else
    if hasSubstring "std::bad_alloc".toList (errorLog fs3 names.log) then (fs3, .error .outOfMemory)
    else if ret = -24 then (fs3, .error .outOfTime)
    else (fs3, .error .externalCommand)

/-- Models `_solve_lp` (lp_grounding.py:68-80) when there is no model yet, given the program and the translation of names. -/
def solveWithFiles (fs : FileSys) (found : Bool) (names : TempNames) (solver : AStr → CmdRun) (rules : List LPRuleT) (tr : Translator) :
    FileSys × Except RunErr LPModel :=
  match runClingo fs found names solver (theoryFile rules []) with
  | (fs1, .error e) => (fs1, .error e)
  | (fs1, .ok (mf, tf)) =>
    match parseModelArgs (fileLines fs1) (some mf) none tr with
    | .error e => (fs1, .error (.reading e))
    | .ok m => match silentRemove fs1 mf with
      | (fs2, false) => (fs2, .error .osError)
      | (fs2, true) => match silentRemove fs2 tf with
        | (fs3, false) => (fs3, .error .osError)
        | (fs3, true) => if (m.get "goal".toList).dedup.length ≠ 1 then (fs3, .error .unsolvable) else (fs3, .ok m)

/-! ### io/utils.py -/

/-- Models `os.path.split` (POSIX). -/
def pathSplit (p : AStr) : AStr × AStr :=
  let tail := (p.reverse.takeWhile (fun c => c != '/')).reverse
  let head := p.take (p.length - tail.length)
  (if head.all (fun c => c == '/') then head else pyRstrip ['/'] head, tail)

/-- Models `os.path.join` (POSIX) of a directory and a name that does not begin with a slash. -/
def pathJoin (d n : AStr) : AStr :=
  if d = [] ∨ d.getLast? = some '/' then d ++ n else d ++ '/' :: n

/-- Models `find_domain_filename` (io/utils.py:4-24). -/
def findDomain (fs : FileSys) (task : AStr) : Option AStr :=
  let (dirname, basename) := pathSplit task
  (["domain.pddl".toList, basename.take 3 ++ "-domain.pddl".toList, "domain_".toList ++ basename, "domain-".toList ++ basename].map
    (pathJoin dirname)).find? (fun p => (fs p).isSome)

end Tarski
