import Verif.Syntax
import Verif.Equality
import Verif.Containers
import Verif.Model
/-! Model of temporal actions: /repo/src/tarski/ndl/temporal.py. Times are integers, in some unit: the code only compares
them. -/
namespace Tarski

/-- What a timed element carries: the resource requests (temporal.py:27-56) and the effects (59-109). Universal and conditional
effects are `other`. -/
inductive NdlItem where
  | lock (ts td : Int) (r : Term)
  | level (ts td : Int) (r : Term) (n : Const)
  | assign (lhs rhs : Term)
  | set (lit : Formula) (value : Bool)
  | other

/-- A `TimedEffect` (temporal.py:112-119). -/
structure Timed where
  delay : Int
  eff : NdlItem

/-- What a caller passes as a timed effect: a `TimedEffect`, or something else. -/
inductive NdlEff where
  | timed (t : Timed)
  | untimed

/-- The keys of `effect_times`: the atom `lhs = rhs`, or a literal with its new truth value (temporal.py:208, 210). -/
inductive NdlKey where
  | eq (a : Formula)
  | lit (l : Formula) (value : Bool)
deriving DecidableEq

/-- The attributes of an `Action` (temporal.py:158-214) that are computed. -/
structure NdlAction where
  maxEffTime : Int
  locks : List Timed
  levels : List Timed
  timed : List Timed
  effectTimes : List (NdlKey × Int)

/-- Is the formula a compound formula, an atom or a tautology (temporal.py:167, 175-180)? -/
def ndlCondition : Formula → Bool
  | .comp _ _ _ => true
  | .atom _ _ => true
  | .top => true
  | _ => false

/-- A postcondition that is given and is none of these (temporal.py:174-181). -/
def postFails : Option Formula → Bool
  | none => false
  | some p => !ndlCondition p

/-- Models `ResourceLock.__init__` (temporal.py:28-33); `.syntactic` stands for `NDLSyntaxError`. -/
def mkLock (ts td : Int) (r : Term) : Except Err NdlItem :=
  match r with
  | .app _ _ => .ok (.lock ts td r)
  | _ => .error .syntactic

/-- Models `ResourceLevel.__init__` (temporal.py:40-53); `cod` gives the codomain of a function. -/
def mkLevel (cod : String → String) (ts td : Int) (r n : Term) : Except Err NdlItem :=
  match r, n with
  | .app f _, .const m s => if s ≠ cod f then .error .syntactic else .ok (.level ts td r ⟨m, s⟩)
  | _, _ => .error .syntactic

/-- The loop over the requirements (temporal.py:189-197). The times `ts` and `req.delay` are not looked at. -/
def ndlRequirements : List Timed → NdlAction → Except Err NdlAction
  | [], a => .ok a
  | r :: rs, a =>
    match r.eff with
    | .lock _ td _ => ndlRequirements rs { a with locks := a.locks ++ [r], maxEffTime := max a.maxEffTime td }
    | .level _ td _ _ => ndlRequirements rs { a with levels := a.levels ++ [r], maxEffTime := max a.maxEffTime td }
    | _ => .error .syntactic

/-- The loop over the timed effects (temporal.py:201-212). -/
def ndlEffects : List NdlEff → NdlAction → Except Err NdlAction
  | [], a => .ok a
  | .untimed :: _, _ => .error .syntactic
  | .timed e :: es, a =>
    match e.eff with
    | .assign l r => ndlEffects es { a with timed := a.timed ++ [e], maxEffTime := max a.maxEffTime e.delay, effectTimes := dinsert a.effectTimes (.eq (.atom (.cmp .eq) [l, r])) e.delay }
    | .set l v => ndlEffects es { a with timed := a.timed ++ [e], maxEffTime := max a.maxEffTime e.delay, effectTimes := dinsert a.effectTimes (.lit l v) e.delay }
    | _ => .error .notImplemented

/-- Models `Action.__init__` (temporal.py:158-214). The untimed effects are stored as they are and not modelled. -/
def mkNdlAction (pre : Formula) (post : Option Formula) (reqs : List Timed) (effs : List NdlEff) : Except Err NdlAction :=
  if ndlCondition pre = false then .error .syntactic
  else if postFails post = true then .error .syntactic
  else match ndlRequirements reqs ⟨0, [], [], [], []⟩ with
    | .error e => .error e
    | .ok a => ndlEffects effs a

/-- Models `get_effect_time` (temporal.py:216-217). -/
def NdlAction.effectTime (a : NdlAction) (k : NdlKey) : Except Err Int :=
  match dlookup a.effectTimes k with
  | none => .error .keyError
  | some t => .ok t

end Tarski
