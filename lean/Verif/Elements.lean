import Verif.Bench
/-! Model of `get_counters_elements` (/repo/src/tarski/benchmarks/counters.py:54-61). -/
namespace Tarski

/-- What the helper returns: the problem, its language, symbols and constants. -/
inductive BenchElement where
  | problem (P : BenchProblem)
  | language (L : MLang)
  | function (name : String)
  | counter (name : String)

/-- `sorted(lang.ns.counter.domain(), key=lambda x: x.symbol)` (counters.py:34, 60): Python compares strings by code points, as Lean does. -/
def sortedNames (l : List String) : List String := l.mergeSort (fun a b => decide (a ≤ b))

/-- Models `get_counters_elements` (counters.py:54-61). -/
def countersElements (n : Nat) : Except Err (List BenchElement) :=
  match countersProblem n none sortedNames with
  | .error e => .error e
  | .ok P => .ok ([.problem P, .language P.lang, .function "value", .function "max_int"] ++ (sortedNames (counterNames n)).map .counter)

end Tarski
