import Verif.Timing
/-! C130: timing a block of code. -/
namespace Tarski

/-! ### Specification -/

/-- The line with the times, given the texts of the four numbers. -/
def timesLine (cpu wall diff curr : Text) : Text :=
  "[".toList ++ cpu ++ "s CPU, ".toList ++ wall ++ "s wall-clock, diff: ".toList ++ diff ++ "MB, curr:  ".toList ++ curr ++ "MB]".toList

/-- The times of the block are written after what the block writes. -/
def TimesWritten {F} (O : TimerOps F) (text : Text) (newline : Bool) (start now : Reading F) (written block : Text) : Prop :=
  ∃ diff curr, written = text ++ (if newline then "...\n" else "... ").toList ++ block ++ (if newline then text ++ ": ".toList else []) ++
    timesLine (O.fmt (O.sub now.cpu start.cpu)) (O.fmt (O.sub now.wall start.wall)) diff curr ++ "\n".toList

/-- The full claim: timing changes neither the result nor the exceptions of a block, and writes the times of a block that returns. -/
def C130_full : Prop :=
  ∀ (F α : Type) (O : TimerOps F) (text : Text) (newline : Bool) (start now : Reading F) (out : Text) (r : Except Err α),
    (timing O text newline start now (out, r)).2 = r ∧ ∀ a, r = .ok a → TimesWritten O text newline start now (timing O text newline start now (out, r)).1 out

/-! ### Theorems -/

/-- C130, where it fails: without `psutil`, every block that returns ends with a TypeError, and its times are not written. -/
theorem C130_no_memory {F α : Type} (O : TimerOps F) (text : Text) (newline : Bool) (start now : Reading F) (h : start.mem = none) (out : Text) (a : α) :
    timing O text newline start now (out, .ok a) = (text ++ (if newline then "...\n" else "... ").toList ++ out, .error .typeError) := by
  have : timerText O start now = .error .typeError := by simp only [timerText, h]
  simp only [timing, this, timingHead]
  cases newline <;> simp

theorem C130_refuted : ¬ C130_full := by
  intro h
  have := (h Unit Unit ⟨fun _ _ => (), fun _ => (), fun _ => []⟩ [] false ⟨(), (), none⟩ ⟨(), (), none⟩ [] (.ok ())).1
  rw [C130_no_memory _ _ _ _ _ rfl] at this
  cases this

/-- C130 (part that holds): when the memory usage can be read, the result of the block is not changed, and the times, the growth of the memory in use and the
memory in use are written after what the block writes. -/
theorem C130_timing_partial {F α : Type} (O : TimerOps F) (text : Text) (newline : Bool) (start now : Reading F) (m c : Int) (hm : start.mem = some m)
    (hc : now.mem = some c) (out : Text) (a : α) :
    (timing O text newline start now (out, .ok a)).2 = .ok a ∧
    (timing O text newline start now (out, .ok a)).1 = text ++ (if newline then "...\n" else "... ").toList ++ out ++ (if newline then text ++ ": ".toList else []) ++
      timesLine (O.fmt (O.sub now.cpu start.cpu)) (O.fmt (O.sub now.wall start.wall)) (O.fmt (O.mb (c - m))) (O.fmt (O.mb c)) ++ "\n".toList ∧
    TimesWritten O text newline start now (timing O text newline start now (out, .ok a)).1 out := by
  have key : (timing O text newline start now (out, .ok a)) = (text ++ (if newline then "...\n" else "... ").toList ++ out ++ (if newline then text ++ ": ".toList else []) ++
      timesLine (O.fmt (O.sub now.cpu start.cpu)) (O.fmt (O.sub now.wall start.wall)) (O.fmt (O.mb (c - m))) (O.fmt (O.mb c)) ++ "\n".toList, .ok a) := by
    simp only [timing, timerText, hm, hc, timingHead, timesLine]
    cases newline <;> simp
  rw [key]
  exact ⟨rfl, rfl, _, _, rfl⟩

/-- C130: an exception of the block is raised in any case, and no times are written. -/
theorem C130_exception {F α : Type} (O : TimerOps F) (text : Text) (newline : Bool) (start now : Reading F) (out : Text) (e : Err) :
    timing (α := α) O text newline start now (out, .error e) = (text ++ (if newline then "...\n" else "... ").toList ++ out, .error e) := by
  simp only [timing, timingHead]
  cases newline <;> simp

/-! ### Examples -/

/-- Times in hundredths of a second, with a conversion for numbers of one digit. -/
def centiOps : TimerOps Nat := ⟨fun x y => x - y, fun b => (b / 1048576).toNat, fun x => ['0', '.', '0'] ++ (toString x).toList⟩

example : let r := timing centiOps "parse".toList false ⟨10, 100, some 1048576⟩ ⟨13, 105, some 3145728⟩ ("x".toList, .ok 7)
    r.2 = .ok 7 ∧ r.1 = "parse... x[0.03s CPU, 0.05s wall-clock, diff: 0.02MB, curr:  0.03MB]\n".toList := ⟨rfl, by decide +kernel⟩

end Tarski
