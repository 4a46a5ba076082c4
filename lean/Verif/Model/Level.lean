import Verif.Py.Dict
/-!
# Model of `gemd.entity.bounds_validation`

The module-level variable `BOUNDS_VALIDATION` is the state of a small program language that contains everything a
program can do about it: read it, set it, open a `with validation_level(...)` block, raise, catch, return.
-/

namespace Verif.Level
open Verif.Py

/-- `WarningLevel` (bounds_validation.py:7-19) -/
inductive Level where
  | ignore | warning | fatal
  deriving DecidableEq, Repr

/-- an argument of `WarningLevel(level)`: a level (or its number), or anything else, which raises ValueError -/
inductive LevelArg where
  | level (l : Level)
  | bad

/-- `BOUNDS_VALIDATION = WarningLevel.WARNING` (bounds_validation.py:22) -/
def initial : Level := .warning

/-- how a statement ends -/
inductive End where
  | normal
  | returned          -- return / break / continue leaving the block
  | raised (e : PyErr)
  deriving DecidableEq, Repr

/-- statements -/
inductive Prog where
  | skip
  | seq (p q : Prog)
  | get                                  -- `get_validation_level()`, recorded in the trace
  | set (a : LevelArg)                   -- `set_validation_level(a)`
  | block (a : LevelArg) (body : Prog)   -- `with validation_level(a): body`
  | raise (e : PyErr)
  | ret
  | tryExcept (body handler : Prog)      -- `try: body; except Exception: handler`

/-- Execution: level afterwards, levels read, how it ended.
* `get`: bounds_validation.py:25-27
* `set`: bounds_validation.py:30-33; `WarningLevel(level)` is evaluated before the assignment.
* `block`: the generator context manager bounds_validation.py:36-45. The right-hand side of the swap (41) is evaluated
  before either variable is assigned. When the body returns, the generator resumes and restores (45). When the body
  raises, `contextlib` throws the exception into the generator at the `yield` (42); there is no try/finally, so line 45
  is not executed. -/
def exec (s : Level) : Prog → Level × List Level × End
  | .skip => (s, [], .normal)
  | .seq p q =>
    match exec s p with
    | (s1, t1, .normal) => match exec s1 q with
      | (s2, t2, e) => (s2, t1 ++ t2, e)
    | (s1, t1, e) => (s1, t1, e)
  | .get => (s, [s], .normal)
  | .set (.level l) => (l, [], .normal)
  | .set .bad => (s, [], .raised .valueError)
  | .block .bad _ => (s, [], .raised .valueError)
  | .block (.level l) body =>
    let oldValue := s
    match exec l body with
    | (s1, t1, .raised e) => (s1, t1, .raised e)
    | (_, t1, e) => (oldValue, t1, e)
  | .raise e => (s, [], .raised e)
  | .ret => (s, [], .returned)
  | .tryExcept body handler =>
    match exec s body with
    | (s1, t1, .raised _) => match exec s1 handler with
      | (s2, t2, e) => (s2, t1 ++ t2, e)
    | r => r

end Verif.Level
