import Verif.ExprText
import Verif.Syntax
/-! Model of the timer of code blocks: /repo/src/tarski/utils/resources.py:12-64. -/
namespace Tarski

/-- What the clocks and `get_mem_usage` (resources.py:12-19) say at some moment: without `psutil` there is no memory usage. -/
structure Reading (F : Type) where
  cpu : F
  wall : F
  mem : Option Int

/-- The floats: differences, bytes in megabytes (`/ (1024 * 1024)`), and the conversion `%.2f`. -/
structure TimerOps (F : Type) where
  sub : F → F → F
  mb : Int → F
  fmt : F → Text

/-- Models `Timer.__str__` (resources.py:33-48). Without the memory usage at the start, `"-" % ...` is formatted with `%.2f` (lines 34-35, 46-47), which
raises TypeError; without the present one, `None / ...` (line 41) raises TypeError. -/
def timerText {F} (O : TimerOps F) (start now : Reading F) : Except Err Text :=
  match start.mem with
  | none => .error .typeError
  | some m =>
    match now.mem with
    | none => .error .typeError
    | some c => .ok (['['] ++ O.fmt (O.sub now.cpu start.cpu) ++ ['s', ' ', 'C', 'P', 'U', ',', ' '] ++ O.fmt (O.sub now.wall start.wall) ++
        ['s', ' ', 'w', 'a', 'l', 'l', '-', 'c', 'l', 'o', 'c', 'k', ',', ' ', 'd', 'i', 'f', 'f', ':', ' '] ++ O.fmt (O.mb (c - m)) ++
        ['M', 'B', ',', ' ', 'c', 'u', 'r', 'r', ':', ' ', ' '] ++ O.fmt (O.mb c) ++ ['M', 'B', ']'])

/-- What is written by the line before the block (resources.py:54-57). -/
def timingHead (text : Text) (newline : Bool) : Text := text ++ ['.', '.', '.'] ++ if newline then ['\n'] else [' ']

/-- Models `with timing(text, newline): block` (resources.py:51-64). A block is what it writes with its result or exception; an exception is raised again at the
`yield` (line 59), which nothing catches. -/
def timing {F α} (O : TimerOps F) (text : Text) (newline : Bool) (start now : Reading F) (block : Text × Except Err α) : Text × Except Err α :=
  let out := timingHead text newline ++ block.1
  match block.2 with
  | .error e => (out, .error e)
  | .ok a =>
    match timerText O start now with
    | .error e => (out, .error e)
    | .ok t => (out ++ (if newline then text ++ [':', ' '] ++ t else t) ++ ['\n'], .ok a)

end Tarski
