import Verif.Effects
/-! Models of the effect manipulations of /repo/src/tarski/fstrips/representation.py: conflict detection, delete
relaxation, expansion of universal effects. -/
namespace Tarski

/-- Models `is_atomic_effect` (representation.py:111-113): a `SingleEffect` with condition `top`. -/
def Effect.isAtomic : Effect → Bool
  | .univ _ _ _ => false
  | e => e.cond == .top

/-- Models `is_propositional_effect` (representation.py:116-118) together with `eff.atom` and the polarity of line
140. -/
def Effect.propositional? : Effect → Option (Formula × Bool)
  | .add _ p ts => some (.atom p ts, true)
  | .del _ p ts => some (.atom p ts, false)
  | _ => none

/-- The loop of `compute_effect_set_conflicts` (representation.py:137-144); `pol` is the dictionary of polarities,
`conf` the set of conflicts. -/
def conflictsLoop : List (Formula × Bool) → List Formula → List Effect → Except Err (List Formula)
  | _, conf, [] => .ok conf
  | pol, conf, e :: es =>
    if e.isAtomic then
      match e.propositional? with
      | none => .error .representation
      | some (a, b) =>
        let conf' := match dlookup pol a with
          | some b' => if b' ≠ b then ptAdd conf a else conf
          | none => conf
        conflictsLoop (dinsert pol a b) conf' es
    else .error .representation

/-- Models `compute_effect_set_conflicts` (representation.py:133-145). -/
def effectConflicts (es : List Effect) : Except Err (List Formula) := conflictsLoop [] [] es

/-- Models `is_strips_effect_set` (representation.py:121-130). -/
def isStripsEffectSet (es : List Effect) : Bool :=
  match effectConflicts es with
  | .error _ => false
  | .ok conf => conf.length == 0

mutual
/-- Models `contains_delete_subeffects` (representation.py:183-190); `any` stops at the first sub-effect that contains
a delete. -/
def containsDel : Effect → Except Err Bool
  | .del _ _ _ => .ok true
  | .add _ _ _ => .ok false
  | .univ _ _ es => containsDels es
  | .lit _ _ => .error .runtime
  | .assign _ _ _ _ => .error .runtime
/-- `any(...)` of line 189; also the loop of `is_delete_free` (representation.py:175-180) over the effects of all
actions, negated. -/
def containsDels : List Effect → Except Err Bool
  | [] => .ok false
  | e :: es => match containsDel e with
    | .error er => .error er
    | .ok true => .ok true
    | .ok false => containsDels es
end

mutual
/-- One iteration of the loop of `remove_delete_effects` (representation.py:202-211). -/
def removeDel : Effect → Except Err (List Effect)
  | .del _ _ _ => .ok []
  | .add c p ts => .ok [.add c p ts]
  | .univ c vs es => match removeDels es with
    | .error er => .error er
    | .ok es' => .ok [.univ c vs es']
  | .lit _ _ => .error .runtime
  | .assign _ _ _ _ => .error .runtime
/-- Models `remove_delete_effects` (representation.py:200-212). `compute_delete_free_relaxation` (193-197) works on a
deep copy of the problem, so the in-place update of line 208 is not visible. -/
def removeDels : List Effect → Except Err (List Effect)
  | [] => .ok []
  | e :: es => match removeDel e with
    | .error er => .error er
    | .ok r => match removeDels es with
      | .error er => .error er
      | .ok rs => .ok (r ++ rs)
end

/-- Models the body of the loop of `compute_delete_free_relaxation` (representation.py:195-196) on one action. -/
def relaxSchema (a : Schema) : Except Err Schema :=
  match removeDels a.effs with
  | .error e => .error e
  | .ok es => .ok { a with effs := es }

/-- Models `expand_universal_effect` (representation.py:596-606). -/
def expandUniversal (dom : Domains) : Effect → Except Err (List Effect)
  | .univ c vs es =>
    if c = .top then
      match enumSubsts dom vs with
      | .error e => .error e
      | .ok ss => .ok (ss.flatMap (fun s => es.map (subE s)))
    else .error .assertion
  | e => .ok [e]

/-- Models the inner loop of `compile_universal_effects_away` (representation.py:613-617) on one action. -/
def expandAll (dom : Domains) : List Effect → Except Err (List Effect)
  | [] => .ok []
  | e :: es => match expandUniversal dom e with
    | .error er => .error er
    | .ok r => match expandAll dom es with
      | .error er => .error er
      | .ok rs => .ok (r ++ rs)

end Tarski
